import Verif.Sig.NameModel
import Verif.Job.Model
/-!
# The `kill` built-in (sig.c)

Messages are left out except for their number, and the help is not modelled. Writing never fails. `long` has 64 bits and `pid_t` has 32; a value that does not fit
is reduced modulo 2^32, as the usual compilers do. The arguments do not include the name of the built-in. (`get_signal_number_toupper` changes arguments in place, but
no argument is used after it has been changed, except in messages.)
-/
set_option autoImplicit false

namespace Yash.Kill

open Yash.Sig.Names (Table getSignalName getSignalNumberToupper killList decimal)
open Yash.TestBuiltin (World isDigit wcstoimax)

abbrev Str := List Char

/-- `towupper`, `iswspace` (in `W`), the signals, `SIGTERM`, `posixly_correct`, the jobs, and `strsignal`. -/
structure Env where
  upper : Char → Char
  W : World
  T : Table
  sigterm : Int
  posix : Bool
  jobs : Job.State
  describe : Int → Option Str

/-- A call of `kill`: what is to get the signal, and the signal. -/
abbrev Call := Int × Int

/-- Which calls succeed; this may depend on the calls that were made before. -/
abbrev System := List Call → Call → Bool

/-- The exit statuses 0, 1 (`Exit_FAILURE`) and 2 (`Exit_ERROR`). -/
inductive Status where
  | success | failure | error
deriving DecidableEq, Repr

/-- What the options say: to send a signal or to print, and the operands. -/
inductive Action where
  | send (signum : Int) (operands : List Str)
  | list (verbose : Bool) (operands : List Str)
  | stop (status : Status)
  | help
  | abort
deriving DecidableEq, Repr

/-- `parse_signal_name` (sig.c:1336-1349); `rest` are the arguments after the one with the name. -/
def parseSignalName (E : Env) (arg : Str) (rest : List Str) : Action :=
  if E.posix && "SIG".toList.isPrefixOf arg then .stop .error
  else
    match getSignalNumberToupper E.upper E.W E.T arg with
    | none => .abort
    | some signum =>
      if signum < 0 ∨ (signum = 0 ∧ ((arg.map E.upper).head?.map isDigit).getD false = false) then .stop .failure
      else
        match rest with
        | a :: rest' => if a = "--".toList then .send signum rest' else .send signum rest
        | [] => .send signum []

/-- What the characters of an argument of options say (sig.c:1320-1376). -/
inductive Scan where
  | next (list verbose : Bool)
  | done (action : Action)

/-- The loop over the characters of an argument (sig.c:1320-1376) from the `i`-th one on; `arg` is the argument and `rest` are the arguments after it. -/
def scan (E : Env) (arg : Str) (rest : List Str) : Nat → Bool → Bool → Str → Scan
  | _, list, verbose, [] => .next list verbose
  | i, list, verbose, c :: cs =>
    if c = 'n' ∨ c = 's' then
      if list then .done (.stop .error)
      else if cs = [] then
        match rest with
        | [] => .done (.stop .error)
        | name :: rest => .done (parseSignalName E name rest)
      else .done (parseSignalName E cs rest)
    else if c = 'l' then scan E arg rest (i + 1) true verbose cs
    else if c = 'v' then scan E arg rest (i + 1) true true cs
    else if c = '-' ∧ i = 1 ∧ cs = [] then .done (if list then .list verbose rest else .send E.sigterm rest)
    else if c = '-' ∧ i = 1 ∧ E.posix = false ∧ arg.isPrefixOf "--help".toList then .done .help
    else if i = 1 ∧ list = false then .done (parseSignalName E (c :: cs) rest)
    else .done (.stop .error)

/-- The loop over the arguments (sig.c:1316-1377). -/
def options (E : Env) (list verbose : Bool) : List Str → Action
  | [] => if list then .list verbose [] else .send E.sigterm []
  | ('-' :: c :: cs) :: rest =>
    match scan E ('-' :: c :: cs) rest 1 list verbose (c :: cs) with
    | .next list verbose => options E list verbose rest
    | .done a => a
  | rest => if list then .list verbose rest else .send E.sigterm rest

/-- The conversion to `pid_t`. -/
def toPid (n : Int) : Int := (n + 2147483648) % 4294967296 - 2147483648

/-- `get_job_pgid` (job.c:522-542); nothing if there is a message. -/
def getJobPgid (jobs : Job.State) (jobname : Str) : Option Nat :=
  match Job.lookup jobs (match jobname with | '%' :: name => name | _ => jobname) with
  | .ok (_, job) => if job.legacy then none else if job.pgid = 0 then none else some job.pgid
  | .error _ => none

/-- The operand of a call of `kill`: of `signal_job` (sig.c:1465-1473) or of the built-in itself (sig.c:1422-1437). Nothing if there is a message. -/
def target (E : Env) (proc : Str) : Option Int :=
  if proc.head? = some '%' then (getJobPgid E.jobs proc).map fun pgid => -(pgid : Int)
  else (wcstoimax E.W proc).map toPid

/-- The loop over the processes (sig.c:1421-1438): the calls, and the number of messages. -/
def sendLoop (E : Env) (sys : System) (signum : Int) : List Call → List Str → List Call × Nat
  | before, [] => (before, 0)
  | before, proc :: procs =>
    match target E proc with
    | none =>
      let (calls, errors) := sendLoop E sys signum before procs
      (calls, errors + 1)
    | some pid =>
      let (calls, errors) := sendLoop E sys signum (before ++ [(pid, signum)]) procs
      (calls, if sys before (pid, signum) then errors else errors + 1)

/-- The format `%-10ls`. -/
def pad10 (s : Str) : Str := s ++ List.replicate (10 - s.length) ' '

/-- `print_signal` (sig.c:1447-1461). -/
def printSignal (E : Env) (signum : Int) (name : Str) (verbose : Bool) : Str :=
  if !verbose then name ++ ['\n']
  else
    match E.describe signum with
    | some d => decimal signum ++ '\t' :: pad10 name ++ ' ' :: d ++ ['\n']
    | none => decimal signum ++ '\t' :: pad10 name ++ ['\n']

/-- The loop over the real-time signals (sig.c:1388-1390) from `i` on, at most `n` times. -/
def printRt (E : Env) (verbose : Bool) : Int → Nat → Str
  | _, 0 => []
  | i, n + 1 => if i ≤ E.T.rtmax then printSignal E i (getSignalName E.T i) verbose ++ printRt E verbose (i + 1) n else []

/-- Information about all signals (sig.c:1383-1391). -/
def printAll (E : Env) (verbose : Bool) : Str :=
  (E.T.table.flatMap fun s => printSignal E s.1 s.2 verbose) ++ printRt E verbose E.T.rtmin (E.T.rtmax - E.T.rtmin + 1).toNat

/-- The number that is meant by an operand of `kill -l` (sig.c:1398-1405); `none` is a failed assertion. -/
def listNumber (E : Env) (arg : Str) : Option Int :=
  match TestBuiltin.xwcstoi E.W arg with
  | some n => if 0 ≤ n then some (if 384 ≤ n then n - 384 else if 128 ≤ n then n - 128 else n) else getSignalNumberToupper E.upper E.W E.T arg
  | none => getSignalNumberToupper E.upper E.W E.T arg

/-- The loop over the operands (sig.c:1394-1414): the output and the number of messages. -/
def listLoop (E : Env) (verbose : Bool) : List Str → Option (Str × Nat)
  | [] => some ([], 0)
  | arg :: args => do
    let signum ← listNumber E arg
    let name := getSignalName E.T signum
    let (out, errors) ← listLoop E verbose args
    if signum ≤ 0 ∨ name = [] then some (out, errors + 1) else some (printSignal E signum name verbose ++ out, errors)

/-- What the built-in does: the calls of `kill`, the output and the exit status. -/
structure Result where
  calls : List Call
  out : Str
  status : Status
deriving DecidableEq, Repr

/-- `kill_builtin` (sig.c:1308-1441). `none` is the help or a failed assertion. -/
def killBuiltin (E : Env) (sys : System) (args : List Str) : Option Result :=
  match options E false false args with
  | .help => none
  | .abort => none
  | .stop st => some ⟨[], [], st⟩
  | .list verbose [] => some ⟨[], printAll E verbose, .success⟩
  | .list verbose ops => (listLoop E verbose ops).map fun r => ⟨[], r.1, if r.2 = 0 then .success else .failure⟩
  | .send _ [] => some ⟨[], [], .error⟩
  | .send signum ops =>
    let r := sendLoop E sys signum [] ops
    some ⟨r.1, [], if r.2 = 0 then .success else .failure⟩

end Yash.Kill
