/-!
# Signals and traps (`sig.c`)

Signal sets and arrays indexed by signals are functions.  The table `signals` is the parameter `sigs`; real-time signals are
not treated apart (the index of `rttrap_command` is always in range if `SIGRTMIN` and `SIGRTMAX` are those that the shell was
compiled with).  `sigaction` succeeds for all signals but `SIGKILL` and `SIGSTOP`, for which it is not called.  A failing
assertion is `none`.  The flags for job control and line-editing (`sigchld_received`, `sigint_received`,
`sigwinch_received`) are left out.

The handler runs at once as seen from the rest of the program; `handle_traps`, which it can interrupt anywhere, is split
into steps.
-/
set_option autoImplicit false

namespace Yash.Sig

abbrev Str := List Char

/-- The signals that the code names, and the others; `exit` is the number 0 (the `EXIT` trap). -/
inductive Signal where
  | exit
  | int
  | quit
  | term
  | chld
  | tstp
  | ttin
  | ttou
  | winch
  | kill
  | stop
  | other (n : Nat)
deriving DecidableEq, Repr

/-- `SIG_DFL`, `SIG_IGN`, `sig_handler`. -/
inductive Disp where
  | dfl
  | ign
  | catch
deriving DecidableEq, Repr

/-- The variables of sig.c:237-303, the dispositions and the signal mask of the process, and the shell options that matter.
`handled`: `handled_signal >= 0`.  `scan`: inside `handle_traps`, the signals that are still to be examined in this round;
`running`: an action is being executed there. -/
structure State where
  cmd : Signal → Option Str
  received : Signal → Bool
  any : Bool
  anyTrap : Bool
  handled : Bool
  phantom : Bool
  officialMask : Signal → Bool
  acceptMask : Signal → Bool
  origDfl : Signal → Bool
  origIgn : Signal → Bool
  offIgn : Signal → Bool
  trapped : Signal → Bool
  mainSet : Bool
  jobSet : Bool
  interSet : Bool
  disp : Signal → Disp
  mask : Signal → Bool
  isInteractive : Bool
  interactiveNow : Bool
  jobControl : Bool
  scan : Option (List Signal)
  running : Bool

/-- Assigns an element of an array or the membership in a set. -/
def put {α : Type} (f : Signal → α) (s : Signal) (v : α) : Signal → α := fun t => if t = s then v else f t

/-- `init_signal` (sig.c:306-315) in a process with these dispositions and this mask. -/
def init (disp : Signal → Disp) (mask : Signal → Bool) (interactive jobControl : Bool) : State where
  cmd := fun _ => none
  received := fun _ => false
  any := false
  anyTrap := false
  handled := false
  phantom := false
  officialMask := mask
  acceptMask := mask
  origDfl := fun _ => false
  origIgn := fun _ => false
  offIgn := fun _ => false
  trapped := fun _ => false
  mainSet := false
  jobSet := false
  interSet := false
  disp := disp
  mask := mask
  isInteractive := interactive
  interactiveNow := interactive
  jobControl := jobControl
  scan := none
  running := false

/-- The sets of signals that are known to have been ignored or not (sig.c:417-425). -/
def record (s : Signal) (st : State) : State :=
  if st.origDfl s || st.origIgn s then st
  else if st.disp s = .ign then { st with origIgn := put st.origIgn s true }
  else { st with origDfl := put st.origDfl s true }

/-- `xsigaction` (sig.c:405-427). -/
def xsigaction (s : Signal) (h : Disp) (st : State) : State :=
  { record s st with disp := put st.disp s h }

/-- `set_special_handler` (sig.c:438-451). -/
def setSpecial (s : Signal) (h : Disp) (st : State) : State :=
  if !st.phantom && st.trapped s then st
  else
    let st' := xsigaction s h st
    if st.disp s = .ign then { st' with offIgn := put st'.offIgn s true } else st'

/-- `reset_special_handler` (sig.c:458-479). -/
def resetSpecial (s : Signal) (h : Disp) (leave : Bool) (st : State) : Option State :=
  if st.trapped s then (if st.offIgn s then none else some st)
  else
    let h' := if leave && h != .ign then .dfl else h
    let target := if st.offIgn s then .ign else .dfl
    if h' = target then some st else some { st with disp := put st.disp s target }

/-- `set_signals` (sig.c:319-349). -/
def setSignals (st : State) : State :=
  let block := st.trapped
  let st :=
    if !st.jobSet && st.jobControl then
      setSpecial .tstp .ign (setSpecial .ttou .ign (setSpecial .ttin .ign { st with jobSet := true }))
    else st
  let inter := !st.interSet && st.interactiveNow
  let block := if inter then put (put block .int true) .winch true else block
  let st :=
    if inter then
      setSpecial .winch .catch (setSpecial .quit .ign (setSpecial .term .ign (setSpecial .int .catch
        { st with interSet := true })))
    else st
  let main := !st.mainSet
  let block := if main then put block .chld true else block
  let st := if main then setSpecial .chld .catch { st with mainSet := true } else st
  { st with mask := fun s => st.mask s || block s }

/-- The part of `restore_signals` and `reset_job_signals` about job control (sig.c:358-363, 395-398). -/
def restoreJob (leave : Bool) (st : State) : Option State :=
  if st.jobSet then
    (resetSpecial .ttin .ign leave { st with jobSet := false }).bind fun st =>
    (resetSpecial .ttou .ign leave st).bind fun st =>
    resetSpecial .tstp .ign leave st
  else some st

/-- The part of `restore_signals` about interactive shells (sig.c:364-372). -/
def restoreInter (leave : Bool) (st : State) : Option State :=
  if st.interSet then
    (resetSpecial .int .catch leave { st with interSet := false }).bind fun st =>
    (resetSpecial .term .ign leave st).bind fun st =>
    (resetSpecial .quit .ign leave st).bind fun st =>
    resetSpecial .winch .catch leave st
  else some st

/-- The part of `restore_signals` about `SIGCHLD` and the mask (sig.c:373-382). -/
def restoreMain (leave : Bool) (st : State) : Option State :=
  if st.mainSet then
    if leave then
      (resetSpecial .chld .catch leave { st with mainSet := false }).map fun st => { st with mask := st.officialMask }
    else some { st with mask := put st.officialMask .chld true }
  else some st

/-- `restore_signals` (sig.c:356-383). -/
def restoreSignals (leave : Bool) (st : State) : Option State :=
  (restoreJob leave st).bind fun st => (restoreInter leave st).bind fun st => restoreMain leave st

/-- `reset_job_signals` (sig.c:387-400). -/
def resetJobSignals (st : State) : Option State :=
  if st.jobControl && !st.jobSet then
    some (setSpecial .tstp .ign (setSpecial .ttou .ign (setSpecial .ttin .ign { st with jobSet := true })))
  else if !st.jobControl then restoreJob false st
  else some st

/-- `is_originally_ignored` (sig.c:957-971): the value and the state with the record it makes. -/
def originallyIgnored (s : Signal) (st : State) : Bool × State :=
  if s = .exit then (false, st)
  else if st.origIgn s then (true, st)
  else if st.origDfl s then (false, st)
  else ((record s st).origIgn s, record s st)

/-- The disposition for an action (sig.c:894-899). -/
def handlerFor : Option Str → Disp
  | none => .dfl
  | some [] => .ign
  | some (_ :: _) => .catch

/-- The disposition that the shell needs instead (sig.c:914-942); nothing if it is not to be changed. -/
def adjust (s : Signal) (h : Disp) (st : State) : Option Disp :=
  match s with
  | .chld => none
  | .int => if st.interSet then none else some h
  | .winch => if st.interSet then none else some h
  | .ttin => some (if st.jobSet && h = .dfl then .ign else h)
  | .ttou => some (if st.jobSet && h = .dfl then .ign else h)
  | .tstp => some (if st.jobSet && h = .dfl then .ign else h)
  | .term => some (if st.interSet && h = .dfl then .ign else h)
  | .quit => some (if st.interSet && h = .dfl then .ign else h)
  | _ => some h

/-- The commands and the flags in `set_trap` (sig.c:879-889). -/
def storeCommand (s : Signal) (command : Option Str) (st : State) : State :=
  if st.phantom then st
  else
    { st with
      cmd := put st.cmd s command
      anyTrap := st.anyTrap || (handlerFor command = .catch)
      received := put st.received s false }

/-- The signal sets in `set_trap` (sig.c:901-912). -/
def updateSets (s : Signal) (h : Disp) (st : State) : State :=
  { st with
    offIgn := put st.offIgn s (h = .ign)
    officialMask := if h = .catch then put st.officialMask s false else st.officialMask
    acceptMask := if h = .catch then put st.acceptMask s false else st.acceptMask
    trapped := put st.trapped s (h = .catch) }

/-- The end of `set_trap` (sig.c:914-953). -/
def install (s : Signal) (h : Disp) (st : State) : State :=
  match adjust s h st with
  | none => st
  | some h => xsigaction s h (if h = .catch then { st with mask := fun t => st.mask t || st.trapped t } else st)

/-- `set_trap` (sig.c:840-953). -/
def setTrap (s : Signal) (command : Option Str) (st : State) : State :=
  if s = .kill ∨ s = .stop then st
  else
    let look := !st.isInteractive && (st.cmd s).isNone
    let st' := if look then (originallyIgnored s st).2 else st
    if look && (originallyIgnored s st).1 then st'
    else
      let st' := storeCommand s command st'
      if s = .exit then st' else install s (handlerFor command) (updateSets s (handlerFor command) st')

/-- The trap has a non-empty command (as in sig.c:990). -/
def hasCommand (st : State) (s : Signal) : Bool := handlerFor (st.cmd s) = .catch

/-- One signal in `phantomize_traps` (sig.c:988-992, 995-999). -/
def phantomize1 (st : State) (s : Signal) : State :=
  let st := if hasCommand st s then setTrap s none st else st
  { st with received := put st.received s false }

/-- `phantomize_traps` (sig.c:980-1010). -/
def phantomize (sigs : List Signal) (st : State) : State :=
  if !st.anyTrap && !st.any then st
  else { (.exit :: sigs).foldl phantomize1 { st with phantom := true } with anyTrap := false, any := false }

/-- `banish_phantoms` (sig.c:1013-1044). -/
def banish (sigs : List Signal) (st : State) : State :=
  if !st.phantom then st
  else
    (.exit :: sigs).foldl (fun st s => if hasCommand st s then { st with cmd := put st.cmd s none } else st)
      { st with phantom := false }

/-- `ignore_sigquit_and_sigint` (sig.c:498-512). -/
def ignoreQuitInt (st : State) : State :=
  let st := if st.interSet then st else xsigaction .int .ign (xsigaction .quit .ign st)
  { st with offIgn := put (put st.offIgn .quit true) .int true }

/-- `ignore_sigtstp` (sig.c:517-529). -/
def ignoreTstp (st : State) : State := { st with offIgn := put st.offIgn .tstp true }

/-- `become_child` (exec.c:1540-1565), as far as signals are concerned.  `clear_shellfds` ends job control.  A process that has
been forked inside `handle_traps` never comes back to it. -/
def becomeChild (sigs : List Signal) (quitint tstp leave : Bool) (st : State) : Option State :=
  let st := if leave then setTrap .exit none st else phantomize sigs st
  let st := if quitint && !st.jobControl then ignoreQuitInt st else st
  let st := if tstp && st.jobControl then ignoreTstp st else st
  (restoreSignals leave st).map fun st =>
    { st with jobControl := false, interactiveNow := false, scan := none, running := false }

/-- What `execve` makes of the dispositions: signals that are caught get the default action. -/
def inherited (st : State) (s : Signal) : Disp := if st.disp s = .ign then .ign else .dfl

/-- The state in which a program is started in place of the shell: `restore_signals(true)` in `exec_external_program`
(exec.c:1094). -/
def atExec (st : State) : Option State := restoreSignals true st

/-- The same in a new process: `fork_and_wait(t_leave)` (exec.c:1038) before. -/
def atForkExec (sigs : List Signal) (st : State) : Option State :=
  (becomeChild sigs false false true st).bind atExec

/-- `sig_handler` (sig.c:541-563). -/
def sigHandler (s : Signal) (st : State) : State := { st with any := true, received := put st.received s true }

/-- What can happen to the signal state of a shell process. -/
inductive Op where
  /-- A signal is delivered. -/
  | arrive (s : Signal)
  /-- The `trap` built-in with one operand (sig.c:1259-1269); several operands are several calls.  What is not in the table is no
  signal. -/
  | trap (s : Signal) (command : Option Str)
  /-- `set -m` and `set +m` (option.c:676-682). -/
  | jobControl (on : Bool)
  /-- `exec` with a program that cannot be executed (exec.c:1094, 1111). -/
  | execFails
  /-- The process becomes a subshell. -/
  | enter (quitint tstp : Bool)
  /-- `handle_traps` is called. -/
  | begin
  /-- `handle_traps` examines the next signal, or ends a round. -/
  | next
  /-- The action of a trap ends. -/
  | finish
deriving DecidableEq, Repr

/-- `handle_traps` up to the loop over the signals (sig.c:732-754). -/
def beginTraps (sigs : List Signal) (st : State) : State :=
  if st.scan.isSome || !st.anyTrap || !st.any || st.handled then st
  else { st with any := false, scan := some sigs, running := false }

/-- One iteration of the loop over the signals, or the end of it (sig.c:756-802, 806): the new state and the action that is
executed. -/
def nextTrap (sigs : List Signal) (st : State) : State × Option (Signal × Str) :=
  if st.running then (st, none)
  else
    match st.scan with
    | none => (st, none)
    | some [] =>
      if st.any then ({ st with any := false, scan := some sigs }, none)
      else ({ st with scan := none, handled := false }, none)
    | some (s :: rest) =>
      let st := { st with scan := some rest }
      if st.received s then
        let st := { st with received := put st.received s false }
        match st.cmd s with
        | some (c :: cs) =>
          if st.phantom then (st, none) else ({ st with handled := true, running := true }, some (s, c :: cs))
        | _ => (st, none)
      else (st, none)

/-- One operation; an action that is executed is returned. -/
def step (sigs : List Signal) (st : State) : Op → Option (State × Option (Signal × Str))
  | .arrive s => some (if st.disp s = .catch then sigHandler s st else st, none)
  | .trap s command =>
    some (if s = .exit ∨ s ∈ sigs then setTrap s command (banish sigs st) else banish sigs st, none)
  | .jobControl on => (resetJobSignals { st with jobControl := on }).map (·, none)
  | .execFails => (atExec st).map fun st => (setSignals st, none)
  | .enter quitint tstp => (becomeChild sigs quitint tstp false st).map (·, none)
  | .begin => some (beginTraps sigs st, none)
  | .next => some (nextTrap sigs st)
  | .finish => some ({ st with running := false }, none)

/-- A sequence of operations: the final state and the actions that have been executed. -/
def run (sigs : List Signal) : List Op → State → Option (State × List (Signal × Str))
  | [], st => some (st, [])
  | op :: ops, st =>
    match step sigs st op with
    | none => none
    | some (st, e) =>
      match run sigs ops st with
      | none => none
      | some (st, es) => some (st, e.toList ++ es)

/-- The shell when it has been started. -/
def start (disp : Signal → Disp) (mask : Signal → Bool) (interactive jobControl : Bool) : State :=
  setSignals (init disp mask interactive jobControl)

/-- `handle_signals` (sig.c:567-579): whether the signal is let through. -/
def accepts (st : State) (s : Signal) : Bool :=
  !(if s = .chld then false else if s = .int && st.interSet then false else st.acceptMask s)

end Yash.Sig
