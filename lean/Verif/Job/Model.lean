/-!
# Model of the job list (`job.c`)

Jobs are values in a list indexed by job numbers, as in the array `joblist`. The system calls are parameters: what `waitpid` reports is
a list of events, and whether `kill` succeeds is a Boolean. `none` as a result means undefined behaviour, a failed assertion or a wait
that never ends, as said in each case. The messages of errors are left out, only the kind of the error is kept.
-/
set_option autoImplicit false

namespace Yash.Job

/-- `jobstatus_T` (job.h:29-31). -/
inductive Status where
  | running
  | stopped
  | done
  deriving DecidableEq, Repr

/-- The status of a child process reported by `waitpid`: it exited, was killed or stopped by a signal, or was continued. -/
inductive WaitStatus where
  | exited (status : Nat)
  | signaled (signal : Nat)
  | stopped (signal : Nat)
  | continued
  deriving DecidableEq, Repr

/-- `process_T` (job.h:34-43). The status code of a process that was not started (`pid` is 0) is an exit status, represented
by `exited`; that of a process about which nothing has been reported is `none`. -/
structure Process where
  pid : Nat
  status : Status
  code : Option WaitStatus
  name : List Char
  deriving DecidableEq, Repr

/-- `job_T` (job.h:46-58). `key` stands for the address of the object. -/
structure Job where
  key : Nat
  pgid : Nat
  status : Status
  changed : Bool
  legacy : Bool
  nonotify : Bool
  procs : List Process
  deriving DecidableEq, Repr

/-- The variables `joblist`, `current_jobnumber` and `previous_jobnumber` (job.c:85-93). The job of number 0 is the active job. `cap`
is the capacity of the array. -/
structure State where
  jobs : List (Option Job)
  cap : Nat
  current : Nat
  previous : Nat
  deriving DecidableEq, Repr

/-- The options that matter, and whether the shell is interactive and job control is enabled. -/
structure Opts where
  curstop : Bool
  curasync : Bool
  curbg : Bool
  pipefail : Bool
  notify : Bool
  interactive : Bool
  jobControl : Bool
  posix : Bool

/-- `init_job` (job.c:96-101); `pl_init` makes room for 7 elements. -/
def init : State := ⟨[none], 7, 0, 0⟩

/-- `get_job` (job.c:144-147). -/
def getJob (s : State) (n : Nat) : Option Job := if n < s.jobs.length then s.jobs.getD n none else none

/-- The job is stopped. -/
def isStopped : Option Job → Bool
  | some j => j.status == .stopped
  | none => false

/-- `stopped_job_count` (job.c:334-343). -/
def stoppedCount (s : State) : Nat := s.jobs.countP isStopped

/-- `job_count` (job.c:318-330). -/
def jobCount (s : State) : Nat :=
  s.jobs.countP fun
    | none => false
    | some j => !(j.status == .done && !j.changed)

/-- The loop `while (--jobnumber > 0)` (job.c:279-292): the first number below `n` with the property, from the top, or 0. -/
def scanDown (p : Nat → Bool) : Nat → Nat
  | 0 => 0
  | 1 => 0
  | n + 2 => if p (n + 1) then n + 1 else scanDown p (n + 1)

/-- `find_next_job` (job.c:272-294). -/
def findNext (s : State) (excl : Nat) : Nat :=
  if s.previous != excl && isStopped (getJob s s.previous) then s.previous
  else
    let n := scanDown (fun i => i != excl && isStopped (getJob s i)) s.jobs.length
    if n != 0 then n else scanDown (fun i => i != excl && (getJob s i).isSome) s.jobs.length

/-- The job cannot be the current (previous) job because it does not exist or because it is not stopped although another one is. -/
def unfit (s : State) (stopped : Bool) (n : Nat) : Bool :=
  match getJob s n with
  | none => true
  | some j => stopped && j.status != .stopped

/-- `set_current_jobnumber` (job.c:227-265). -/
def setCurrent (s : State) (n : Nat) : State :=
  let stopcount := stoppedCount s
  let c :=
    if !unfit s (stopcount > 0) n then n
    else if !unfit s (stopcount > 0) s.current then s.current
    else if !unfit s (stopcount > 0) s.previous then s.previous
    else findNext s 0
  let p := if c != s.current then s.current else s.previous
  let p :=
    if !(unfit s (stopcount > 1) p || p == c) then p
    else if !(unfit s (stopcount > 1) s.previous || s.previous == c) then s.previous
    else findNext s c
  { s with current := c, previous := p }

/-- `set_active_job` (job.c:104-109); `none` is a failed assertion. -/
def setActive (s : State) (j : Job) : Option State :=
  match s.jobs with
  | none :: js => some { s with jobs := some j :: js }
  | _ => none

/-- The capacity after `pl_ensuremax` (plist.c:104-117). -/
def ensureMax (cap max : Nat) : Nat :=
  if max ≤ cap then cap else Nat.max (Nat.max max (cap + cap / 2)) (cap + 6)

/-- The loop that looks for an empty element (job.c:125-130). -/
def firstEmpty (jobs : List (Option Job)) : Nat := 1 + (jobs.drop 1).findIdx Option.isNone

/-- `add_job` (job.c:115-141); `none` is a failed assertion. -/
def addJob (s : State) (current : Bool) : Option State :=
  match s.jobs with
  | some j :: js =>
    let n := firstEmpty s.jobs
    let s :=
      if n < s.jobs.length then { s with jobs := (none :: js).set n (some j) }
      else { s with jobs := none :: js ++ [some j], cap := ensureMax s.cap (s.jobs.length + 1) }
    some (if j.status == .stopped || current then setCurrent s n else setCurrent s s.current)
  | _ => none

/-- The loop that finds the end of the list (job.c:188-192): the first element is always kept. -/
def dropNulls : List (Option Job) → List (Option Job)
  | [] => []
  | j :: js => j :: (js.reverse.dropWhile Option.isNone).reverse

/-- `trim_joblist` (job.c:181-195). -/
def trim (s : State) : State :=
  if s.cap > 20 && s.cap / 2 > s.jobs.length then { s with cap := s.jobs.length * 2 }
  else { s with jobs := dropNulls s.jobs }

/-- `remove_job` (job.c:152-158); `none` means that the array does not have the element. -/
def removeJob (s : State) (n : Nat) : Option State :=
  if n < s.jobs.length then
    let s := trim { s with jobs := s.jobs.set n none }
    some (setCurrent s s.current)
  else none

/-- `remove_all_jobs` (job.c:161-169). -/
def removeAll (s : State) : State :=
  { trim { s with jobs := s.jobs.map fun _ => none } with current := 0, previous := 0 }

/-- `neglect_all_jobs` (job.c:199-207). -/
def neglectAll (s : State) : State :=
  { s with jobs := s.jobs.map (Option.map fun j => { j with legacy := true }), current := 0, previous := 0 }

/-- The loop in `apply_curstop` (job.c:302-307). -/
def curstopLoop : List Nat → State → State
  | [], s => s
  | n :: ns, s =>
    match getJob s n with
    | some j => if j.status == .stopped && j.changed then curstopLoop ns (setCurrent s n) else curstopLoop ns s
    | none => curstopLoop ns s

/-- `apply_curstop` (job.c:299-311). -/
def applyCurstop (o : Opts) (s : State) : State :=
  let s := if o.curstop then curstopLoop (List.range s.jobs.length) s else s
  setCurrent s s.current

/-! ## Child processes -/

/-- What `waitpid` reports. -/
structure Event where
  pid : Nat
  status : WaitStatus
  deriving DecidableEq, Repr

/-- The status of the process after the report (job.c:400-411). -/
def WaitStatus.toStatus : WaitStatus → Status
  | .exited _ => .done
  | .signaled _ => .done
  | .stopped _ => .stopped
  | .continued => .running

/-- The process is the one the report is about (job.c:389-390). -/
def Process.isFor (p : Process) (pid : Nat) : Bool := p.pid == pid && p.status != .done

/-- Updates the first process that the report is about (job.c:399-411). -/
def updateProcs (e : Event) : List Process → List Process
  | [] => []
  | p :: ps =>
    if p.isFor e.pid then { p with code := some e.status, status := e.status.toStatus } :: ps else p :: updateProcs e ps

/-- The status of the job (job.c:418-433). -/
def summary (ps : List Process) : Status :=
  if ps.any (·.status == .running) then .running else if ps.any (·.status == .stopped) then .stopped else .done

/-- Updates the job that the report is about (job.c:399-435). -/
def updateJob (e : Event) (j : Job) : Job :=
  let ps := updateProcs e j.procs
  { j with procs := ps, status := summary ps, changed := j.changed || summary ps != j.status }

/-- Finds the job that has the process and updates it; an unknown process is ignored (job.c:384-435). -/
def updateJobs (e : Event) : List (Option Job) → List (Option Job)
  | [] => []
  | none :: js => none :: updateJobs e js
  | some j :: js => if j.procs.any (·.isFor e.pid) then some (updateJob e j) :: js else some j :: updateJobs e js

/-- `do_wait` (job.c:348-438) when `waitpid` reports the events and then that there are no more. -/
def doWait (s : State) (es : List Event) : State := { s with jobs := es.foldl (fun js e => updateJobs e js) s.jobs }

/-- `calc_status` (job.c:579-593). -/
def calcStatus : WaitStatus → Nat
  | .exited n => n
  | .continued => 0
  | .signaled n => n + 384
  | .stopped n => n + 384

/-- `calc_status_of_process` (job.c:597-601). `none`: the status code has not been set. -/
def Process.exitStatus (p : Process) : Option Nat := p.code.map calcStatus

/-- The loop for the option pipefail (job.c:611-615), from the last process to the first. -/
def pipefailLoop : List Process → Option Nat
  | [] => some 0
  | p :: ps => do
    let n ← p.exitStatus
    if n != 0 then some n else pipefailLoop ps

/-- `calc_status_of_job` (job.c:605-626). `none`: an assertion fails, or a status that is not set is used. -/
def Job.exitStatus (pipefail : Bool) (j : Job) : Option Nat :=
  match j.status with
  | .done => if !pipefail then j.procs.getLast?.bind Process.exitStatus else pipefailLoop j.procs.reverse
  | .stopped => (j.procs.reverse.find? (·.status == .stopped)).bind Process.exitStatus
  | .running => none

/-- `get_job_name` (job.c:632-645). -/
def Job.name (j : Job) : List Char := (" | ".toList).intercalate (j.procs.map Process.name)

/-! ## Reports -/

/-- What is printed about the status: the functions `get_process_status_string` and `get_job_status_string`. -/
inductive Desc where
  | running
  | stopped (signal : Nat)
  | done (status : Nat)
  | killed (signal : Nat)
  deriving DecidableEq, Repr

/-- `get_process_status_string` (job.c:651-692). `none`: the status code is not one the status can have. -/
def Process.desc (p : Process) : Option Desc :=
  match p.status, p.code with
  | .running, _ => some .running
  | .stopped, some (.stopped n) => some (.stopped n)
  | .done, some (.exited n) => some (.done n)
  | .done, some (.signaled n) => some (.killed n)
  | _, _ => none

/-- `get_job_status_string` (job.c:698-716). -/
def Job.desc (j : Job) : Option Desc :=
  match j.status with
  | .running => some .running
  | .stopped => (j.procs.reverse.find? (·.status == .stopped)).bind Process.desc
  | .done => j.procs.getLast?.bind Process.desc

/-- A line of the output: the number of the job, whether it is the current or previous job, its status and name. -/
structure Report where
  number : Nat
  mark : Char
  desc : Desc
  name : List Char
  deriving DecidableEq, Repr

/-- The character for the current and the previous job (job.c:750-753). -/
def mark (s : State) (n : Nat) : Char := if n == s.current then '+' else if n == s.previous then '-' else ' '

/-- Replaces a job. -/
def setJob (s : State) (n : Nat) (j : Job) : State := { s with jobs := s.jobs.set n (some j) }

/-- `any_job_status_has_changed` (job.c:720-728). -/
def anyChanged (s : State) : Bool :=
  (s.jobs.drop 1).any fun
    | some j => !j.nonotify && j.changed
    | none => false

/-- `print_job_status` (job.c:740-807) in the format that is not verbose, when writing succeeds. -/
def printJob (s : State) (n : Nat) (changedOnly removeDone : Bool) : Option (List Report × State) :=
  match getJob s n with
  | none => some ([], s)
  | some j =>
    if j.nonotify || (changedOnly && !j.changed) then some ([], s)
    else do
      let d ← j.desc
      let s' := setJob s n { j with changed := false }
      let s' ← if removeDone && j.status == .done then removeJob s' n else some s'
      some ([⟨n, mark s n, d, j.name⟩], s')

/-- A loop that prints jobs, `for (i = 1; i < joblist.length; i++)`; `k` is how many numbers are left. The list may get shorter. -/
def printLoop (pr : State → Nat → Option (List Report × State)) : Nat → Nat → State → Option (List Report × State)
  | 0, _, s => some ([], s)
  | k + 1, i, s =>
    if i < s.jobs.length then do
      let (r, s) ← pr s i
      let (rs, s) ← printLoop pr k (i + 1) s
      some (r ++ rs, s)
    else some ([], s)

/-- `print_job_status_all` (job.c:810-815). -/
def printAll (o : Opts) (s : State) : Option (List Report × State) :=
  let s := applyCurstop o s
  printLoop (fun s i => printJob s i true false) s.jobs.length 1 s

/-! ## Waiting -/

/-- `handle_sigchld` (sig.c:695-726) when the line editor is not active. -/
def handleSigchld (o : Opts) (es : List Event) (s : State) : Option (List Report × State) :=
  let s := doWait s es
  if anyChanged s && o.notify then printAll o s else some ([], s)

/-- What happens during a call to `wait_for_sigchld`: perhaps a trap action is executed, which may do anything to the jobs; perhaps
SIGINT is received; and child processes change their states. -/
structure Wake where
  trap : Option (Nat × (State → State))
  sigint : Bool
  events : List Event

/-- `wait_for_sigchld` (sig.c:588-618); the number of the signal, or 0, and the state. -/
def waitForSigchld (o : Opts) (interruptible returnOnTrap : Bool) (w : Wake) (s : State) : Option (Nat × State) := do
  let (n, s) := match w.trap with
    | some (n, f) => if returnOnTrap then (n, f s) else (0, s)
    | none => (0, s)
  let n := if interruptible && w.sigint then 2 else n
  let (_, s) ← handleSigchld o w.events s
  some (n, s)

/-- The loop in `wait_for_job` (job.c:462-471). `none`: the job that is waited for has been freed, or the wait never ends. The
signals that arrive are given by the list. -/
def waitLoop (o : Opts) (n key : Nat) (returnOnStop interruptible returnOnTrap : Bool) : List Wake → State → Option (Nat × State)
  | ws, s =>
    match getJob s n with
    | none => none
    | some j =>
      if j.key != key then none
      else if j.status == .done || (returnOnStop && j.status == .stopped) then some (0, s)
      else
        match ws with
        | [] => none
        | w :: ws => do
          let (sig, s) ← waitForSigchld o interruptible returnOnTrap w s
          if sig != 0 then some (sig, s) else waitLoop o n key returnOnStop interruptible returnOnTrap ws s

/-- `wait_for_job` (job.c:453-476). `none`: the job has been freed, or the wait never ends. -/
def waitForJob (o : Opts) (n : Nat) (returnOnStop interruptible returnOnTrap : Bool) (ws : List Wake) (s : State) : Option (Nat × State) :=
  match getJob s n with
  | none => none
  | some j =>
    if j.legacy then some (0, s)
    else do
      let (sig, s) ← waitLoop o n j.key returnOnStop interruptible returnOnTrap ws (setJob s n { j with nonotify := true })
      match getJob s n with
      | none => none
      | some j' => if j'.key != j.key then none else some (sig, setJob s n { j' with nonotify := j.nonotify })

/-! ## Job specifications -/

/-- `ULONG_MAX`. -/
def ulongMax : Nat := 18446744073709551615

/-- A decimal digit (`iswdigit`). -/
def isDigit (c : Char) : Bool := '0' ≤ c && c ≤ '9'

/-- `xwcstoul(name, 10, …)` for a string that begins with a digit. -/
def toNumber (s : List Char) : Option Nat :=
  if s.all isDigit then
    let n := s.foldl (fun n c => n * 10 + (c.toNat - 48)) 0
    if n ≤ ulongMax then some n else none
  else none

/-- `wcsstr` finds the second string in the first. -/
def contains : List Char → List Char → Bool
  | [], t => t.isEmpty
  | c :: s, t => t.isPrefixOf (c :: s) || contains s t

/-- The loop over the names of jobs (job.c:905-922); `n` is the one that has been found before. -/
def nameLoop (s : State) (m : List Char → Bool) : List Nat → Nat → Nat
  | [], n => n
  | i :: is, n =>
    match getJob s i with
    | some j => if m j.name then (if n != 0 then s.jobs.length else nameLoop s m is i) else nameLoop s m is n
    | none => nameLoop s m is n

/-- `get_jobnumber_from_name` (job.c:880-924). -/
def numberFromName (s : State) (name : List Char) : Nat :=
  if name = [] || name = ['%'] || name = ['+'] then s.current
  else if name = ['-'] then s.previous
  else
    let byName :=
      match name with
      | '?' :: t => nameLoop s (fun n => contains n t) (List.range' 1 (s.jobs.length - 1)) 0
      | _ => nameLoop s (fun n => name.isPrefixOf n) (List.range' 1 (s.jobs.length - 1)) 0
    if name.head?.any isDigit then
      match toNumber name with
      | some n => if (getJob s n).isSome then n else 0
      | none => byName
    else byName

/-- `get_jobnumber_from_pid` (job.c:928-944). -/
def numberFromPid (s : State) (pid : Nat) : Nat :=
  if pid = 0 then 0
  else scanDown (fun i => match getJob s i with
    | some j => j.procs.any (·.pid == pid)
    | none => false) s.jobs.length

/-! ## Built-ins -/

/-- The kinds of errors. -/
inductive Error where
  | notJobSpec
  | ambiguous
  | noSuchJob
  | notControlled
  | noCurrent
  | terminated
  deriving DecidableEq, Repr

/-- The part of an operand after `%`; operands without it are rejected in the POSIXly-correct mode (job.c:1039-1046). -/
def jobSpec (posix : Bool) : List Char → Option (List Char)
  | '%' :: t => some t
  | t => if posix then none else some t

/-- Looks up the job for an operand (job.c:1048-1056). -/
def lookup (s : State) (name : List Char) : Except Error (Nat × Job) :=
  if numberFromName s name ≥ s.jobs.length then .error .ambiguous
  else if numberFromName s name = 0 then .error .noSuchJob
  else
    match getJob s (numberFromName s name) with
    | none => .error .noSuchJob
    | some j => .ok (numberFromName s name, j)

/-- Which jobs the built-in `jobs` prints. -/
structure JobsOpts where
  changedOnly : Bool
  runningOnly : Bool
  stoppedOnly : Bool

/-- `jobs_builtin_print_job` (job.c:1078-1112) without the option `-p`. -/
def jobsPrint (jo : JobsOpts) (s : State) (n : Nat) : Option (List Report × State) :=
  match getJob s n with
  | none => some ([], s)
  | some j =>
    if (jo.runningOnly && j.status != .running) || (jo.stoppedOnly && j.status != .stopped) then some ([], s)
    else printJob s n jo.changedOnly true

/-- The loop over the operands of `jobs` (job.c:1036-1061). -/
def jobsOperands (o : Opts) (jo : JobsOpts) : List (List Char) → State → Option (List Report × List Error × State)
  | [], s => some ([], [], s)
  | a :: as, s =>
    match jobSpec o.posix a with
    | none => do
      let (rs, es, s) ← jobsOperands o jo as s
      some (rs, .notJobSpec :: es, s)
    | some t =>
      match lookup s t with
      | .error e => do
        let (rs, es, s) ← jobsOperands o jo as s
        some (rs, e :: es, s)
      | .ok (n, _) => do
        let (r, s) ← jobsPrint jo s n
        let (rs, es, s) ← jobsOperands o jo as s
        some (r ++ rs, es, s)

/-- `jobs_builtin` (job.c:1005-1073) after the options, without `-l` and `-p`. -/
def jobsBuiltin (o : Opts) (jo : JobsOpts) (args : List (List Char)) (s : State) : Option (List Report × List Error × State) :=
  let s := applyCurstop o s
  if args.isEmpty then do
    let (rs, s) ← printLoop (jobsPrint jo) s.jobs.length 1 s
    some (rs, [], s)
  else jobsOperands o jo args s

/-- `continue_job` (job.c:1197-1263): the exit status and the errors. `killed` is whether `kill` succeeds. The job is one with a process
group and not a legacy one, as the callers check. -/
def continueJob (o : Opts) (fg killed : Bool) (ws : List Wake) (n : Nat) (s : State) : Option (Nat × List Error × State) :=
  match getJob s n with
  | none => none
  | some j =>
    let s := if j.status != .done && killed then setJob s n { j with status := .running } else s
    let errors := if j.status == .done && !fg then [Error.terminated] else []
    if fg then do
      let (_, s) ← waitForJob o n true false false ws s
      let j ← getJob s n
      match j.status with
      | .stopped => do
        let st ← j.exitStatus o.pipefail
        some (st, errors, setCurrent s n)
      | .done => do
        let st ← j.exitStatus o.pipefail
        let s ← removeJob s n
        some (st, errors, s)
      | .running => none
    else do
      let s := setCurrent s (if o.curbg then n else s.current)
      let j ← getJob s n
      some (if j.status == .running then 0 else 1, errors, s)

/-- The checks before a job is continued (job.c:1163-1170 and 1179-1184). -/
def continuable (j : Job) : Except Error Unit :=
  if j.legacy then .error .noSuchJob else if j.pgid = 0 then .error .notControlled else .ok ()

/-- The loop over the operands of `fg` and `bg` (job.c:1150-1177). Each job is continued with a result of `kill` and the signals that arrive
while it is waited for. -/
def fgOperands (o : Opts) (fg : Bool) : List (List Char × Bool × List Wake) → Nat → State → Option (Nat × List Error × State)
  | [], st, s => some (st, [], s)
  | (a, killed, ws) :: as, st, s =>
    match jobSpec o.posix a with
    | none => do
      let (st, es, s) ← fgOperands o fg as st s
      some (st, .notJobSpec :: es, s)
    | some t =>
      match (lookup s t).bind fun (n, j) => (continuable j).map fun _ => n with
      | .error e => do
        let (st, es, s) ← fgOperands o fg as st s
        some (st, e :: es, s)
      | .ok n => do
        let (st, es1, s) ← continueJob o fg killed ws n s
        let (st, es, s) ← fgOperands o fg as st s
        some (st, es1 ++ es, s)

/-- The exit status of `fg`, `bg` (job.c:1186-1191). -/
def fgStatus (st : Nat) (es : List Error) : Nat := if st != 0 then st else if es.isEmpty then 0 else 1

/-- `fg_builtin` (job.c:1124-1192) after the options, when job control is enabled. Without operands, `killed` and `ws` are for the current job.
`none` also stands for reading an element that the array does not have. -/
def fgBuiltin (o : Opts) (fg : Bool) (args : List (List Char × Bool × List Wake)) (killed : Bool) (ws : List Wake) (s : State) :
    Option (Nat × List Error × State) :=
  if !args.isEmpty then do
    let (st, es, s) ← fgOperands o fg args 0 s
    some (fgStatus st es, es, s)
  else if s.current = 0 then some (1, [.noCurrent], s)
  else
    match getJob s s.current with
    | none => none
    | some j =>
      if j.legacy then some (1, [.noCurrent], s)
      else if j.pgid = 0 then some (1, [.notControlled], s)
      else do
        let (st, es, s) ← continueJob o fg killed ws s.current s
        some (fgStatus st es, es, s)

/-- `xwcstol(jobspec, 10, …)` for process IDs: only digits are considered here; a sign or white space in front is left out. -/
def toPid (s : List Char) : Option Nat :=
  if s = [] then none
  else match toNumber s with
    | some n => if n ≤ 9223372036854775807 then some n else none
    | none => none

/-- The number of the job for an operand of `wait` (job.c:1330-1345). -/
def waitTarget (s : State) : List Char → Except Error Nat
  | '%' :: t => .ok (numberFromName s t)
  | t =>
    match toPid t with
    | none => .error .notJobSpec
    | some pid => .ok (numberFromPid s pid)

/-- The result of waiting for an operand. -/
inductive WaitResult where
  | status (n : Nat)
  | interrupted (n : Nat)
  | error (e : Error)
  deriving DecidableEq, Repr

/-- `wait_for_job_by_jobspec` (job.c:1327-1373). -/
def waitForSpec (o : Opts) (ws : List Wake) (spec : List Char) (s : State) : Option (WaitResult × State) :=
  match waitTarget s spec with
  | .error e => some (.error e, s)
  | .ok n =>
    if n ≥ s.jobs.length then some (.error .ambiguous, s)
    else if n = 0 then some (.status 127, s)
    else
      match getJob s n with
      | none => some (.status 127, s)
      | some j =>
        if j.legacy then some (.status 127, s)
        else do
          let (sig, s) ← waitForJob o n o.jobControl o.jobControl true ws s
          if sig != 0 then some (.interrupted (sig + 384), s)
          else do
            let j ← getJob s n
            let st ← j.exitStatus o.pipefail
            let (_, s) ←
              if o.jobControl && o.interactive && !o.posix then printJob s n false true
              else if j.status == .done then (removeJob s n).map fun s => ([], s)
              else some ([], s)
            some (.status st, s)

/-- The first loop in `wait_builtin_has_job` (job.c:1379-1386); `k` is how many numbers are left. -/
def waitClean (o : Opts) : Nat → Nat → State → Option State
  | 0, _, s => some s
  | k + 1, i, s =>
    if i < s.jobs.length then do
      let (_, s') ← if o.jobControl && o.interactive && !o.posix then printJob s i true false else some ([], s)
      let s' ← match getJob s' i with
        | some j => if j.legacy || j.status == .done then removeJob s' i else some s'
        | none => some s'
      waitClean o k (i + 1) s'
    else some s

/-- `wait_builtin_has_job` (job.c:1376-1395). -/
def waitHasJob (o : Opts) (s : State) : Option (Bool × State) := do
  let s ← waitClean o s.jobs.length 1 s
  some ((s.jobs.drop 1).any fun
    | some j => !o.jobControl || j.status == .running
    | none => false, s)

/-- The loop of `wait` without operands (job.c:1309-1316). `none` also stands for a wait that never ends. -/
def waitAll (o : Opts) : List Wake → State → Option (Nat × State)
  | ws, s => do
    let (b, s) ← waitHasJob o s
    if !b then some (0, s)
    else
      match ws with
      | [] => none
      | w :: ws => do
        let (sig, s) ← waitForSigchld o o.jobControl true w s
        if sig != 0 then some (sig + 384, s) else waitAll o ws s

/-- `disown_builtin` (job.c:1408-1456) after the options; `all` is the option `-a`. -/
def disown (o : Opts) (all : Bool) : List (List Char) → State → Option (List Error × State)
  | args, s =>
    if all then some ([], removeAll s)
    else if args.isEmpty then
      if s.current = 0 || (getJob s s.current).isNone then some ([.noCurrent], s)
      else (removeJob s s.current).map fun s => ([], s)
    else operands args s
where
  /-- The loop over the operands (job.c:1430-1448). -/
  operands : List (List Char) → State → Option (List Error × State)
    | [], s => some ([], s)
    | a :: as, s =>
      match jobSpec o.posix a with
      | none => do
        let (es, s) ← operands as s
        some (.notJobSpec :: es, s)
      | some t =>
        match lookup s t with
        | .error e => do
          let (es, s) ← operands as s
          some (e :: es, s)
        | .ok (n, _) => do
          let s ← removeJob s n
          operands as s

/-! ## Starting jobs -/

/-- The process for a command in a pipeline (exec.c:425-447): the number of the new process, or `none` if it could not be created. -/
def startProcess (c : Option Nat × List Char) : Process :=
  match c.1 with
  | some pid => ⟨pid, .running, none, c.2⟩
  | none => ⟨0, .done, some (.exited 126), c.2⟩

/-- The new job (exec.c:450-462). -/
def newJob (key : Nat) (o : Opts) (cs : List (Option Nat × List Char)) : Job :=
  { key := key, pgid := if o.jobControl then (cs.filterMap Prod.fst).head?.getD 0 else 0, status := .running, changed := true, legacy := false,
    nonotify := false, procs := cs.map startProcess }

/-- `exec_commands` (exec.c:396-491) for an asynchronous command; the job is added without waiting. -/
def startAsync (o : Opts) (key : Nat) (cs : List (Option Nat × List Char)) (s : State) : Option State := do
  let s ← setActive s (newJob key o cs)
  addJob s o.curasync

/-- `exec_commands` (exec.c:396-491) for a pipeline in the foreground: the exit status and the state. `none` also stands for a wait that never
ends. -/
def runForeground (o : Opts) (key : Nat) (cs : List (Option Nat × List Char)) (ws : List Wake) (s : State) : Option (Nat × State) := do
  let s ← setActive s (newJob key o cs)
  let (_, s) ← waitForJob o 0 o.jobControl false false ws s
  let j ← getJob s 0
  let st ← j.exitStatus o.pipefail
  if j.status == .done then do
    let s ← removeJob s 0
    some (st, s)
  else do
    let s ← addJob s true
    some (st, s)

end Yash.Job
