import Verif.Xgetopt.Spec
import Verif.Arith.Model
import Verif.TestBuiltin.Model
/-!
# The arguments of `break`, `continue`, `return` and `exit` (exec.c, yash.c)

What the built-ins do to the state of the shell; C47 and C49 are about what the commands around them then do. Messages and the help are not modelled.
`unsigned` has 32 bits and `unsigned long` has 64.
-/
set_option autoImplicit false

namespace Yash.Leave

abbrev Str := List Char

/-- `posixly_correct`, `is_interactive_now`, `special_builtin_executed`, `iswdigit`, the library functions, and `stopped_job_count`. -/
structure Env where
  posix : Bool
  interactive : Bool
  special : Bool
  isDigit : Char → Bool
  W : TestBuiltin.World
  stopped : Nat

/-- `exception` (exec.c:124-130). -/
inductive Exc where
  | none | cont | ret | breakIteration | contIteration
deriving DecidableEq, Repr

/-- `laststatus`, `savelaststatus`, `execstate` (exec.c:133-138), `exception`, `forceexit` and `nextforceexit`. -/
structure State where
  laststatus : Int
  savelaststatus : Int
  loopnest : Nat
  breakloopnest : Nat
  noreturn : Bool
  iterating : Bool
  exc : Exc
  forceexit : Bool
  nextforceexit : Bool
deriving DecidableEq

/-- The built-in returns with an exit status, or calls `exit_shell_with_status`. -/
inductive Result where
  | stay (s : State) (status : Int)
  | exit (s : State) (status : Int)
  | help
deriving DecidableEq

/-- `special_builtin_error` (builtin.c:307-312). -/
def specialBuiltinError (E : Env) (status : Int) (s : State) : Result :=
  if E.posix && E.special && !E.interactive then .exit s status else .stay s status

/-- `xwcstoul` (util.c:173-189) with base 0 together with the C library's `wcstoul`, which negates the number modulo 2^64 if there is a minus sign. -/
def xwcstoul (isSpace : Char → Bool) (s : Str) : Option Nat :=
  let p := Arith.splitSign (s.dropWhile isSpace)
  let q := Arith.wcstolPrefix p.2
  if q.2 = [] then none
  else
    match Arith.digitsValue q.1 0 q.2 with
    | some n => if n < 18446744073709551616 then some (if p.1 then (18446744073709551616 - n) % 18446744073709551616 else n) else none
    | none => none

/-- The call of `xgetopt` (exec.c:1865, 1920, yash.c:618). -/
def Env.getopt (E : Env) (opts : List Xgetopt.Opt) : Xgetopt.Config :=
  { opts := opts, posixlyCorrect := E.posix, flagPosix := false, flagDigit := false, isDigit := E.isDigit }

/-- `iter_options` (exec.c:1840-1846). -/
def iterOptions : List Xgetopt.Opt := [⟨'i', some "iteration".toList, .none, false⟩, ⟨'-', some "help".toList, .none, false⟩]

/-- `return_options` (exec.c:1849-1855). -/
def returnOptions : List Xgetopt.Opt := [⟨'n', some "no-return".toList, .none, false⟩, ⟨'-', some "help".toList, .none, false⟩]

/-- `force_help_options` (yash.c:603-609). -/
def forceOptions : List Xgetopt.Opt := [⟨'f', some "force".toList, .none, true⟩, ⟨'-', some "help".toList, .none, false⟩]

/-- The end of `break_builtin` (exec.c:1966-1979), for a positive count. -/
def breakCount (E : Env) (isBreak : Bool) (count : Nat) (s : State) : Result :=
  if s.loopnest = 0 then specialBuiltinError E 2 s
  else
    let count := if count > s.loopnest then s.loopnest else count
    if isBreak then .stay { s with breakloopnest := s.loopnest - count } 0
    else .stay { s with breakloopnest := s.loopnest - count + 1, exc := .cont } 0

/-- `break_builtin` (exec.c:1915-1981). -/
def breakBuiltin (E : Env) (isBreak : Bool) (args : List Str) (s : State) : Result :=
  let r := Xgetopt.Spec.parse (E.getopt iterOptions) none args
  if r.reports.any fun o => o.1.short == '-' then .help
  else
    match r.final with
    | .error _ => specialBuiltinError E 2 s
    | .done =>
      let iter := r.reports.any fun o => o.1.short == 'i'
      if r.operands.length > (if iter then 0 else 1) then specialBuiltinError E 2 s
      else if iter then
        if !s.iterating then .stay s 2
        else .stay { s with exc := if isBreak then .breakIteration else .contIteration } s.laststatus
      else
        match r.operands with
        | [] => breakCount E isBreak 1 s
        | arg :: _ =>
          match xwcstoul E.W.isSpace arg with
          | none => specialBuiltinError E 2 s
          | some countl =>
            if countl = 0 then specialBuiltinError E 2 s
            else if countl > 4294967295 then breakCount E isBreak 4294967295 s
            else breakCount E isBreak countl s

/-- The condition at exec.c:1885 and yash.c:648. -/
def validStatus (E : Env) (arg : Str) : Option Int :=
  match TestBuiltin.xwcstoi E.W arg with
  | some n => if n < 0 then none else some n
  | none => none

/-- The end of `return_builtin` (exec.c:1894-1901). -/
def returnStatus (E : Env) (noreturn : Bool) (status : Int) (s : State) : Result :=
  if !noreturn then
    if s.noreturn && E.interactive then .stay s 1
    else .stay { s with exc := .ret } status
  else .stay s status

/-- `return_builtin` (exec.c:1859-1902). -/
def returnBuiltin (E : Env) (args : List Str) (s : State) : Result :=
  let r := Xgetopt.Spec.parse (E.getopt returnOptions) none args
  if r.reports.any fun o => o.1.short == '-' then .help
  else
    match r.final with
    | .error _ => specialBuiltinError E 2 s
    | .done =>
      let noreturn := r.reports.any fun o => o.1.short == 'n'
      match r.operands with
      | [] => returnStatus E noreturn (if s.savelaststatus ≥ 0 then s.savelaststatus else s.laststatus) s
      | [arg] =>
        match validStatus E arg with
        | some n => returnStatus E noreturn n s
        | none =>
          match specialBuiltinError E 2 s with
          | .stay s _ => returnStatus E noreturn 2 s
          | r => r
      | _ => specialBuiltinError E 2 s

/-- `exit_builtin` (yash.c:614-658). The status -1 stands for that of the last command. If the operand is not valid, `special_builtin_error` may exit already
(yash.c:651), with the same status. -/
def exitBuiltin (E : Env) (args : List Str) (s : State) : Result :=
  let r := Xgetopt.Spec.parse (E.getopt forceOptions) none args
  let s := if r.reports.any fun o => o.1.short == 'f' then { s with forceexit := true } else s
  if r.reports.any fun o => o.1.short == '-' then .help
  else
    match r.final with
    | .error _ => specialBuiltinError E 2 s
    | .done =>
      if r.operands.length > 1 then specialBuiltinError E 2 s
      else if E.interactive && !s.forceexit && decide (E.stopped > 0) then
        .stay { s with forceexit := true, nextforceexit := true } 1
      else
        match r.operands with
        | [] => .exit s (-1)
        | arg :: _ =>
          match validStatus E arg with
          | some n => .exit s n
          | none => .exit s 2

/-- What the command of the `EXIT` trap does: it comes to its end, or it calls `exit_shell_with_status`. `laststatus` may change meanwhile. -/
inductive TrapEnd where
  | finished (laststatus : Int)
  | exits (laststatus status : Int)

/-- `exit_shell_with_status` (yash.c:377-393) when it is called first, with `execute_exit_trap` (sig.c:818-832): the argument of `_Exit`. The trap depends
on `laststatus`; there may be none. In the call from the trap, `exitstatus` is not negative. -/
def exitShellWithStatus (trap : Option (Int → TrapEnd)) (laststatus status : Int) : Int :=
  let laststatus := if status ≥ 0 then status else laststatus
  let exitstatus := laststatus
  match trap with
  | none => exitstatus
  | some trap =>
    match trap laststatus with
    | .finished _ => exitstatus
    | .exits _ status => if status ≥ 0 then status else exitstatus

/-- What happens to `forceexit` before a line is read in the interactive mode (yash.c:539-540). -/
def nextLine (s : State) : State := { s with forceexit := s.nextforceexit, nextforceexit := false }

/-- The commands of a line: `exit` with arguments, `jobs` (with valid options; job.c:1034), or another one, which does not change these variables. -/
inductive Cmd where
  | exit (args : List Str)
  | jobs
  | other

/-- One command; `none` is the end of the shell. -/
def runCmd (E : Env) (c : Cmd) (s : State) : Option State :=
  match c with
  | .exit args =>
    match exitBuiltin E args s with
    | .stay s _ => some s
    | .exit _ _ => none
    | .help => some s
  | .jobs => some { s with nextforceexit := true }
  | .other => some s

/-- The commands of a line. -/
def runCmds (E : Env) : List Cmd → State → Option State
  | [], s => some s
  | c :: cs, s => (runCmd E c s).bind (runCmds E cs)

/-- Lines in the interactive mode. -/
def runLines (E : Env) : List (List Cmd) → State → Option State
  | [], s => some s
  | l :: ls, s => (runCmds E l (nextLine s)).bind (runLines E ls)

end Yash.Leave
