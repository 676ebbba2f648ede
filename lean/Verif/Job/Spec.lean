import Verif.Job.Model
/-!
# What is expected of jobs
-/
set_option autoImplicit false

namespace Yash.Job.Spec

open Yash.Job

/-! ## The current and the previous job -/

/-- The job of a number. The number 0 is that of the job being executed in the foreground. -/
def jobAt (s : State) (n : Nat) : Option Job :=
  match s.jobs[n]? with
  | some (some j) => some j
  | _ => none

/-- No command is being executed in the foreground. -/
def Idle (s : State) : Prop := ∃ js, s.jobs = none :: js

/-- There is a job of the number. -/
def Present (s : State) (n : Nat) : Prop := ∃ j, jobAt s n = some j

/-- There is a stopped job of the number. -/
def Stopped (s : State) (n : Nat) : Prop := ∃ j, jobAt s n = some j ∧ j.status = .stopped

/-- How the current job (`%+`) and the previous job (`%-`) are chosen, as described in the manual. -/
structure Discipline (s : State) : Prop where
  /-- There is a current job whenever there is a job. -/
  current : (∃ n, Present s n) → Present s s.current
  /-- Otherwise there is no current job. -/
  noCurrent : (∀ n, ¬Present s n) → s.current = 0
  /-- If there are stopped jobs, the current job is one of them. -/
  currentStopped : (∃ n, Stopped s n) → Stopped s s.current
  /-- If there is a job that is not the current one, there is a previous job, which is not the current one. -/
  previous : (∃ n, n ≠ s.current ∧ Present s n) → s.previous ≠ s.current ∧ Present s s.previous
  /-- Otherwise there is no previous job. -/
  noPrevious : (∀ n, Present s n → n = s.current) → s.previous = 0
  /-- If a job that is not the current one is stopped, the previous job is stopped. -/
  previousStopped : (∃ n, n ≠ s.current ∧ Stopped s n) → Stopped s s.previous

/-! ## What can happen to the jobs -/

mutual

/-- The jobs of the shell change from the first state to the second one by commands and by child processes changing their states. New jobs are
started only if `new`. -/
inductive Runs (o : Opts) (new : Prop) : State → State → Prop
  /-- Nothing happens. -/
  | nothing (s : State) : Runs o new s s
  /-- One thing happens after another. -/
  | andThen {s t u : State} : Runs o new s t → Runs o new t u → Runs o new s u
  /-- Child processes change their states. -/
  | events {s t : State} (es : List Event) (out : List Report) : handleSigchld o es s = some (out, t) → Runs o new s t
  /-- The shell prints a prompt and, before it, the jobs that have changed. -/
  | prompt {s t : State} (out : List Report) : printAll o s = some (out, t) → Runs o new s t
  /-- `jobs` -/
  | jobs {s t : State} (jo : JobsOpts) (args : List (List Char)) (out : List Report) (errors : List Error) :
    jobsBuiltin o jo args s = some (out, errors, t) → Runs o new s t
  /-- `fg` or `bg` -/
  | fg {s t : State} (fg : Bool) (args : List (List Char × Bool × List Wake)) (killed : Bool) (ws : List Wake) (status : Nat) (errors : List Error) :
    (∀ a ∈ args, Traps o new a.2.2) → Traps o new ws → fgBuiltin o fg args killed ws s = some (status, errors, t) → Runs o new s t
  /-- `wait` with an operand -/
  | waitFor {s t : State} (ws : List Wake) (spec : List Char) (result : WaitResult) :
    Traps o new ws → waitForSpec o ws spec s = some (result, t) → Runs o new s t
  /-- `wait` without operands -/
  | waitAll {s t : State} (ws : List Wake) (status : Nat) : Traps o new ws → waitAll o ws s = some (status, t) → Runs o new s t
  /-- `disown` -/
  | disown {s t : State} (all : Bool) (args : List (List Char)) (errors : List Error) : disown o all args s = some (errors, t) → Runs o new s t
  /-- A subshell is started. -/
  | subshell (s : State) : Runs o new s (neglectAll s)
  /-- An asynchronous command -/
  | async {s t : State} (key : Nat) (cs : List (Option Nat × List Char)) : new → startAsync o key cs s = some t → Runs o new s t
  /-- A pipeline in the foreground -/
  | foreground {s t : State} (key : Nat) (cs : List (Option Nat × List Char)) (ws : List Wake) (status : Nat) :
    new → runForeground o key cs ws s = some (status, t) → Runs o new s t

/-- The actions of the traps that are executed during a wait are commands, too. -/
inductive Traps (o : Opts) (new : Prop) : List Wake → Prop
  | nil : Traps o new []
  | cons {w : Wake} {ws : List Wake} : (∀ (n : Nat) (f : State → State), w.trap = some (n, f) → ∀ s, Runs o new s (f s)) → Traps o new ws → Traps o new (w :: ws)

end

/-- The commands after which the current and the previous job are chosen as described in the manual. -/
inductive Settles (o : Opts) : State → State → Prop
  | prompt {s t : State} (out : List Report) : printAll o s = some (out, t) → Settles o s t
  | jobs {s t : State} (jo : JobsOpts) (args : List (List Char)) (out : List Report) (errors : List Error) :
    jobsBuiltin o jo args s = some (out, errors, t) → Settles o s t
  | fg {s t : State} (fg : Bool) (args : List (List Char × Bool × List Wake)) (killed : Bool) (ws : List Wake) (status : Nat) :
    fgBuiltin o fg args killed ws s = some (status, [], t) → Settles o s t
  | disown {s t : State} (all : Bool) (args : List (List Char)) : disown o all args s = some ([], t) → Settles o s t
  | async {s t : State} (key : Nat) (cs : List (Option Nat × List Char)) : startAsync o key cs s = some t → Settles o s t
  | foreground {s t : State} (key : Nat) (cs : List (Option Nat × List Char)) (ws : List Wake) (status : Nat) :
    runForeground o key cs ws s = some (status, t) → Settles o s t

/-- The least number that no job has. -/
def LeastFree (s : State) (n : Nat) : Prop := 0 < n ∧ ¬Present s n ∧ ∀ m, 0 < m → m < n → Present s m

/-- The numbers of the current and the previous job are zero or those of jobs, and they are different. -/
structure Valid (s : State) : Prop where
  current : s.current = 0 ∨ Present s s.current
  previous : s.previous = 0 ∨ Present s s.previous
  different : s.current ≠ 0 → s.previous ≠ s.current

/-- The two are the same job: the same object with the same processes. -/
structure SameJob (j k : Job) : Prop where
  key : j.key = k.key
  pgid : j.pgid = k.pgid
  pids : j.procs.map Process.pid = k.procs.map Process.pid
  names : j.procs.map Process.name = k.procs.map Process.name

/-! ## Job specifications -/

/-- The text occurs in the name. -/
def Occurs (t name : List Char) : Prop := ∃ a b, name = a ++ t ++ b

/-- The text begins the name. -/
def Begins (t name : List Char) : Prop := ∃ b, name = t ++ b

/-- The decimal digits. -/
def digits : List Char := ['0', '1', '2', '3', '4', '5', '6', '7', '8', '9']

/-- The text is a decimal numeral of the number. -/
inductive Numeral : List Char → Nat → Prop
  | digit {d : Nat} {c : Char} : digits[d]? = some c → Numeral [c] d
  | more {t : List Char} {n d : Nat} {c : Char} : Numeral t n → digits[d]? = some c → Numeral (t ++ [c]) (10 * n + d)

/-- The text is one of the symbols for the current and the previous job. -/
def Symbol (t : List Char) : Prop := t = [] ∨ t = ['%'] ∨ t = ['+'] ∨ t = ['-']

/-- The text is a number that fits in the type `unsigned long`. -/
def IsNumber (t : List Char) : Prop := ∃ n, Numeral t n ∧ n < 2 ^ 64

/-- The job of the number is meant by what follows `%`: by a symbol for the current or the previous job, by its number, by a text that occurs
in its name, or by the beginning of its name. -/
inductive Means (s : State) : List Char → Nat → Prop
  | current {t : List Char} : t = [] ∨ t = ['%'] ∨ t = ['+'] → Means s t s.current
  | previous : Means s ['-'] s.previous
  | number {t : List Char} {n : Nat} : Numeral t n → n < 2 ^ 64 → Means s t n
  | containing {t : List Char} {n : Nat} {j : Job} : jobAt s n = some j → Occurs t j.name → Means s ('?' :: t) n
  | beginning {t : List Char} {n : Nat} {j : Job} : ¬Symbol t → ¬IsNumber t → t.head? ≠ some '?' → jobAt s n = some j → Begins t j.name → Means s t n

/-! ## Child processes -/

/-- The report says that the process has ended. -/
def Ended : WaitStatus → Bool
  | .exited _ => true
  | .signaled _ => true
  | .stopped _ => false
  | .continued => false

/-- The reports about a process, up to the one that says that it has ended. -/
def reports (pid : Nat) : List Event → List WaitStatus
  | [] => []
  | e :: es => if e.pid = pid then (if Ended e.status then [e.status] else e.status :: reports pid es) else reports pid es

/-- The state of a process in which it is after the report. -/
def stateOf : WaitStatus → Status
  | .exited _ => .done
  | .signaled _ => .done
  | .stopped _ => .stopped
  | .continued => .running

/-- The state of the process after some reports is the one reported last. -/
def Process.after (p : Process) (rs : List WaitStatus) : Process :=
  match rs.getLast? with
  | none => p
  | some r => { p with status := stateOf r, code := some r }

/-- The state of a job made of the processes: running if any of them is; otherwise stopped if any of them is; otherwise done. -/
def JobState (ps : List Process) (st : Status) : Prop :=
  (st = .running ∧ ∃ p ∈ ps, p.status = .running) ∨
  (st = .stopped ∧ (∀ p ∈ ps, p.status ≠ .running) ∧ ∃ p ∈ ps, p.status = .stopped) ∨
  (st = .done ∧ ∀ p ∈ ps, p.status = .done)

/-- The processes in the list that have not ended have different IDs. The system does not reuse the ID of a process before its end has been
reported. -/
def DistinctPids (s : State) : Prop :=
  (s.jobs.flatMap fun
    | some j => (j.procs.filter fun p => p.status ≠ .done).map Process.pid
    | none => []).Nodup

/-- The exit status for a report. Signals are added to 384. -/
def exitStatusOf : WaitStatus → Nat
  | .exited n => n
  | .signaled n => 384 + n
  | .stopped n => 384 + n
  | .continued => 0

/-- The report that arrived last about a command of a pipeline. One for which no process could be created counts as having exited with 126. -/
def lastReport (es : List Event) (c : Option Nat × List Char) : Option WaitStatus :=
  match c.1 with
  | some pid => (reports pid es).getLast?
  | none => some (.exited 126)

/-- The command has ended. -/
def HasEnded (es : List Event) (c : Option Nat × List Char) : Prop := ∃ r, lastReport es c = some r ∧ Ended r = true

/-- The command is stopped. -/
def HasStopped (es : List Event) (c : Option Nat × List Char) : Prop := ∃ n, lastReport es c = some (.stopped n)

/-- The shell waits no longer for the pipeline: all its commands have ended, or job control is on and all have ended or are stopped. -/
def Over (jobControl : Bool) (es : List Event) (cs : List (Option Nat × List Char)) : Prop :=
  (∀ c ∈ cs, HasEnded es c) ∨ (jobControl = true ∧ ∀ c ∈ cs, HasEnded es c ∨ HasStopped es c)

/-- The status is that of the last command that has another one than 0, or 0 if there is none. -/
def LastNonZero (l : List Nat) (st : Nat) : Prop :=
  (st = 0 ∧ ∀ x ∈ l, x = 0) ∨ (st ≠ 0 ∧ ∃ a b, l = a ++ st :: b ∧ ∀ x ∈ b, x = 0)

/-- The exit status of a pipeline about whose commands these are the last reports: if all have ended, the one of the last command, or with the option
`pipefail` that of the last one that failed; otherwise that of the last stopped command. -/
def ExitStatus (pipefail : Bool) (rs : List (Option WaitStatus)) (st : Nat) : Prop :=
  ((∀ x ∈ rs, ∃ r, x = some r ∧ Ended r = true) → pipefail = false → ∃ r, rs.getLast? = some (some r) ∧ st = exitStatusOf r) ∧
  ((∀ x ∈ rs, ∃ r, x = some r ∧ Ended r = true) → pipefail = true → ∃ l : List WaitStatus, rs = l.map some ∧ LastNonZero (l.map exitStatusOf) st) ∧
  ((¬∀ x ∈ rs, ∃ r, x = some r ∧ Ended r = true) → ∃ a n b, rs = a ++ some (.stopped n) :: b ∧ st = 384 + n ∧ ∀ m, some (.stopped m) ∉ b)

/-- The processes that are created for the pipeline have IDs of their own. -/
def FreshPids (s : State) (cs : List (Option Nat × List Char)) : Prop :=
  (cs.filterMap Prod.fst).Nodup ∧ ∀ pid ∈ cs.filterMap Prod.fst, ∀ n j, jobAt s n = some j → ∀ p ∈ j.procs, p.status ≠ .done → p.pid ≠ pid

end Yash.Job.Spec
