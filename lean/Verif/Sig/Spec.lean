import Verif.Sig.Model
/-!
# What the user knows about signals and traps

For each signal there is an action.  From `Verif.Sig.Model` only the names of signals and operations are used.
-/
set_option autoImplicit false

namespace Yash.Sig.Spec

/-- The action for a signal as the user has set it. -/
inductive Action where
  | default
  | ignore
  | command (c : Str)
deriving DecidableEq, Repr

/-- The action is a command. -/
def Action.IsCommand (a : Action) : Prop := ∃ c, a = .command c

instance (a : Action) : Decidable a.IsCommand :=
  match a with
  | .default => isFalse (by rintro ⟨c, h⟩; cases h)
  | .ignore => isFalse (by rintro ⟨c, h⟩; cases h)
  | .command c => isTrue ⟨c, rfl⟩

/-- The operand of the `trap` built-in: `-`, the empty string or a command. -/
def Action.of : Option Str → Action
  | none => .default
  | some [] => .ignore
  | some (c :: cs) => .command (c :: cs)

/-- What the user knows: the actions; the signals whose commands were set in the parent of this subshell and are still shown by
`trap -p`; the signals that programs find blocked; whether job control is on. -/
structure User where
  act : Signal → Action
  remembered : Signal → Bool
  blocked : Signal → Bool
  jobs : Bool

/-- How the shell was started: the signals that were ignored and blocked, whether it is interactive, and which signals there
are. -/
structure Entry where
  ignored : Signal → Bool
  blocked : Signal → Bool
  interactive : Bool
  sigs : List Signal

/-- At the start. -/
def User.start (e : Entry) (jobs : Bool) : User where
  act := fun s => if e.ignored s then .ignore else .default
  remembered := fun _ => false
  blocked := e.blocked
  jobs := jobs

/-- The action may be changed: there is such a signal, it is not `SIGKILL` or `SIGSTOP`, and it is not one that was ignored when
a non-interactive shell was started. -/
def Entry.Allowed (e : Entry) (s : Signal) : Prop :=
  s = .exit ∨ (s ∈ e.sigs ∧ s ≠ .kill ∧ s ≠ .stop ∧ (e.interactive = true ∨ e.ignored s = false))

instance (e : Entry) (s : Signal) : Decidable (e.Allowed s) := by unfold Entry.Allowed; infer_instance

/-- `trap command s`. -/
def User.trap (e : Entry) (s : Signal) (command : Option Str) (u : User) : User where
  act := fun t => if t = s ∧ e.Allowed s then .of command else u.act t
  remembered := fun _ => false
  blocked := fun t =>
    if t = s ∧ e.Allowed s ∧ s ≠ .exit ∧ (Action.of command).IsCommand then false else u.blocked t
  jobs := u.jobs

/-- The shell becomes a subshell: commands are not inherited; an asynchronous list (`quitint`) ignores `SIGINT` and `SIGQUIT`
without job control, a command substitution (`tstp`) ignores `SIGTSTP` with job control.  `lost`: signals that become
not ignored; none in the documented behaviour. -/
def User.enter (lost : Signal → Bool) (quitint tstp : Bool) (u : User) : User where
  act := fun s =>
    if quitint = true ∧ u.jobs = false ∧ (s = .int ∨ s = .quit) then .ignore
    else if tstp = true ∧ u.jobs = true ∧ s = .tstp then .ignore
    else if (u.act s).IsCommand ∨ lost s then .default
    else u.act s
  remembered := fun s => u.remembered s || decide (u.act s).IsCommand
  blocked := u.blocked
  jobs := false

/-- One operation.  Only signals whose commands are remembered can be lost. -/
inductive Step (e : Entry) : User → Op → User → Prop
  | trap (s : Signal) (command : Option Str) (u : User) : Step e u (.trap s command) (u.trap e s command)
  | jobControl (on : Bool) (u : User) : Step e u (.jobControl on) { u with jobs := on }
  | enter (lost : Signal → Bool) (quitint tstp : Bool) (u : User) : (∀ s, lost s = true → u.remembered s = true) →
      Step e u (.enter quitint tstp) (u.enter lost quitint tstp)
  | arrive (s : Signal) (u : User) : Step e u (.arrive s) u
  | execFails (u : User) : Step e u .execFails u
  | begin (u : User) : Step e u .begin u
  | next (u : User) : Step e u .next u
  | finish (u : User) : Step e u .finish u

/-- A sequence of operations. -/
inductive Run (e : Entry) : User → List Op → User → Prop
  | nil (u : User) : Run e u [] u
  | cons {u v w : User} {op : Op} {ops : List Op} : Step e u op v → Run e v ops w → Run e u (op :: ops) w

/-- The documented behaviour of one operation. -/
def User.step (e : Entry) (u : User) : Op → User
  | .trap s command => u.trap e s command
  | .jobControl on => { u with jobs := on }
  | .enter quitint tstp => u.enter (fun _ => false) quitint tstp
  | _ => u

/-- The documented behaviour. -/
def User.run (e : Entry) : User → List Op → User
  | u, [] => u
  | u, op :: ops => (u.step e op).run e ops

/-- No subshell is started where a signal is ignored whose command is remembered. -/
def Clean (e : Entry) : User → List Op → Prop
  | _, [] => True
  | u, op :: ops =>
    ((∃ q t, op = .enter q t) → ∀ s, u.remembered s = true → u.act s ≠ .ignore) ∧ Clean e (u.step e op) ops

/-- What the shell process itself does with a signal: it catches those with commands, and those it needs (`SIGCHLD`, in an
interactive shell `SIGINT` and `SIGWINCH`); an interactive shell ignores `SIGTERM` and `SIGQUIT`, and with job control the
shell ignores the signals that stop jobs. -/
def shellDisp (interactive jobs : Bool) (s : Signal) : Action → Disp
  | .command _ => .catch
  | a =>
    if s = .chld ∨ (interactive = true ∧ (s = .int ∨ s = .winch)) then .catch
    else if (interactive = true ∧ (s = .term ∨ s = .quit)) ∨ (jobs = true ∧ (s = .tstp ∨ s = .ttin ∨ s = .ttou)) then .ign
    else if a = .ignore then .ign
    else .dfl

/-- The dispositions with which a process can be started: no signal is caught; `SIGKILL` and `SIGSTOP` cannot be ignored; number 0
is no signal. -/
structure Initial (disp : Signal → Disp) : Prop where
  notCaught : ∀ s, disp s ≠ .catch
  exit : disp .exit = .dfl
  kill : disp .kill = .dfl
  stop : disp .stop = .dfl

/-- How the shell was started. -/
def entry (disp : Signal → Disp) (mask : Signal → Bool) (interactive : Bool) (sigs : List Signal) : Entry where
  ignored := fun s => decide (disp s = .ign)
  blocked := mask
  interactive := interactive
  sigs := sigs

/-- The process has become a subshell. -/
def entered (ops : List Op) : Bool := ops.any fun | .enter _ _ => true | _ => false

/-- The signals that arrive. -/
def arrivals (s : Signal) (ops : List Op) : Nat := ops.count (.arrive s)

/-- The operation leaves the trap for the signal in force. -/
def Keeps (s : Signal) (op : Op) : Prop := (∀ c, op ≠ .trap s c) ∧ ∀ q t, op ≠ .enter q t

/-- `handle_traps` is called, and its loops go on; every action ends when it has been started. -/
def handleTraps (n : Nat) : List Op := .begin :: (List.replicate n [Op.finish, Op.next]).flatten

end Yash.Sig.Spec
