import Verif.Exec.Base
/-!
# Execution of commands (`exec.c`, `yash.c`)

Which commands are executed in which order, and with which status, is modelled as it is in the code: by the global
variables `laststatus`, `execstate`, `exception`, `suppresserrexit` and `suppresserrreturn` and the parameter
`finally_exit`, which says that the shell process may end in the command that is executed.  What single steps do (expansions,
redirections, assignments, programs, built-ins that are not about control flow) is left to functions on an opaque state.

Left out: signals and traps (`handle_signals`, `is_interrupted`, the EXIT trap), stopped jobs, failing `fork`, `eval -i` and
`break -i` (`E_BREAK_ITERATION`, `E_CONTINUE_ITERATION`, `iterating`), interactive input in `parse_and_exec`.  The child
processes of a pipeline start from states that are given by the environment, which stands for all that runs at the same time.
-/
set_option autoImplicit false

namespace Yash.Exec
open Yash.Syntax

/-- `Exit_SUCCESS` (exec.h:34). -/
def Exit_SUCCESS : Nat := 0
/-- `Exit_FAILURE` (exec.h:35). -/
def Exit_FAILURE : Nat := 1
/-- `Exit_ERROR` (exec.h:36). -/
def Exit_ERROR : Nat := 2
/-- `Exit_NOTFOUND` (exec.h:38). -/
def Exit_NOTFOUND : Nat := 127
/-- `Exit_SYNERROR` (exec.h:39). -/
def Exit_SYNERROR : Nat := 258
/-- `Exit_EXPERROR` (exec.h:40). -/
def Exit_EXPERROR : Nat := 2
/-- `Exit_ASSGNERR` (exec.h:41). -/
def Exit_ASSGNERR : Nat := 2
/-- `Exit_REDIRERR` (exec.h:42). -/
def Exit_REDIRERR : Nat := 2

/-- `exception` (exec.c:124-130) without the values for iterations. -/
inductive Exc where
  | none
  | cont
  | ret
deriving DecidableEq, Repr

/-- The global variables: `laststatus`, `execstate` (exec.c:133-138), `exception`, `suppresserrexit`, `suppresserrreturn`
(exec.c:216-236), and the rest of the state. -/
structure St (σ : Type) where
  status : Nat := 0
  loopnest : Nat := 0
  breakloopnest : Nat := 0
  noreturn : Bool := false
  exc : Exc := .none
  see : Bool := false
  ser : Bool := false
  sh : σ

/-- The end of a function: nothing (not enough fuel, or a failed assertion), the end of the process, or a new state. -/
inductive Res (σ ω : Type) where
  | none
  | exit (st : Nat) (w : ω)
  | ok (s : St σ)

/-- Sequencing. -/
def Res.andThen {σ ω : Type} (r : Res σ ω) (f : St σ → Res σ ω) : Res σ ω :=
  match r with
  | .none => .none
  | .exit st w => .exit st w
  | .ok s => f s

variable {σ ω ρ ι : Type} (E : Shell σ ω ρ ι)

/-- `exit_shell_with_status` (yash.c:377-393). -/
def exitWith (st : Nat) (s : St σ) : Res σ ω := .exit st (E.final s.sh)

/-- `if (finally_exit) exit_shell();`, as at the end of most functions. -/
def fin (fe : Bool) (s : St σ) : Res σ ω := if fe then exitWith E s.status s else .ok s

/-- `need_break` (exec.c:298-303). -/
def needBreak (s : St σ) : Bool := decide (s.breakloopnest < s.loopnest) || decide (s.exc ≠ .none)

/-- `is_err_condition_for` (exec.c:539-566) for a pipeline that consists of this command. -/
def errCondition : Command → Bool
  | .simple .. => true
  | .subshell .. => true
  | .bracket .. => true
  | .funcdef .. => true
  | .group .. => false
  | .ifs .. => false
  | .fors .. => false
  | .whiles .. => false
  | .cases .. => false

/-- `is_err_condition_for` (exec.c:539-566). -/
def errConditionFor : List Command → Bool
  | [c] => errCondition c
  | _ => true

/-- `is_errexit_condition` (exec.c:514-527). -/
def errexitCondition (s : St σ) : Bool := E.errexit s.sh && !s.see && s.status != Exit_SUCCESS

/-- `is_errreturn_condition` (exec.c:530-535). -/
def errreturnCondition (s : St σ) : Bool := E.errreturn s.sh && !s.ser && !s.noreturn && s.status != Exit_SUCCESS

/-- `apply_errexit_errreturn` (exec.c:505-511); `cond`: the value of `is_err_condition_for`. -/
def applyErr (cond : Bool) (s : St σ) : Res σ ω :=
  if errexitCondition E s && cond then exitWith E s.status s
  else if errreturnCondition E s && cond then .ok { s with exc := .ret }
  else .ok s

/-- `calc_status_of_job` (job.c:624-640) when all processes have ended; the statuses are reduced as `waitpid` does. -/
def jobStatus (pipefail : Bool) (sts : List Nat) : Nat :=
  if !pipefail then (sts.getLast?.getD 0) % 256
  else ((sts.reverse.map (· % 256)).find? (· != Exit_SUCCESS)).getD Exit_SUCCESS

/-- `become_child` (exec.c:1540-1565). -/
def becomeChild (sh : σ) (s : St σ) : St σ :=
  { s with loopnest := 0, breakloopnest := 0, noreturn := false, ser := false, sh := sh }

/-- All results are ends of processes. -/
def allExits : List (Res σ ω) → Option (List (Nat × ω))
  | [] => some []
  | .exit st w :: rs => (allExits rs).map ((st, w) :: ·)
  | _ :: _ => none

/-- What a `case` command finds. -/
inductive Found where
  | fail
  | body (l : List AndOr)
  | nothing

/-- Whether one of the patterns matches (exec.c:1399-1407); nothing on error. -/
def matchAny (w : Str) (st : Nat) : List Word → σ → σ × Option Bool
  | [], sh => (sh, some false)
  | p :: ps, sh =>
    match E.matchOne w p st sh with
    | (sh, none) => (sh, none)
    | (sh, some true) => (sh, some true)
    | (sh, some false) => matchAny w st ps sh

/-- The loop of `exec_case` (exec.c:1398-1418). -/
def findItem (w : Str) (st : Nat) : List CaseItem → σ → σ × Found
  | [], sh => (sh, .nothing)
  | .mk ps body :: items, sh =>
    match matchAny E w st ps sh with
    | (sh, none) => (sh, .fail)
    | (sh, some true) => (sh, .body body)
    | (sh, some false) => findItem w st items sh

/-- `break_builtin` and `continue_builtin` (exec.c:1915-1979) with a count of at least one. -/
def breakBuiltin (cont : Bool) (n : Nat) (s : St σ) : Res σ ω :=
  if s.loopnest == 0 then
    if E.fatal s.sh then exitWith E Exit_ERROR s else .ok { s with status := Exit_ERROR }
  else
    let count := if n > s.loopnest then s.loopnest else n
    if !cont then .ok { s with breakloopnest := s.loopnest - count, status := Exit_SUCCESS }
    else .ok { s with breakloopnest := s.loopnest - count + 1, exc := .cont, status := Exit_SUCCESS }

/-- `return_builtin` (exec.c:1859-1902) with a valid status. -/
def returnBuiltin (st : Nat) (s : St σ) : Res σ ω :=
  if s.noreturn && E.interactive s.sh then .ok { s with status := Exit_FAILURE }
  else .ok { s with exc := .ret, status := st }

/-- The functions that call each other, with their arguments. -/
inductive Task (ι : Type) where
  | lists (l : List AndOr) (fe : Bool)
  | pipes (first : Bool) (ps : List Pipeline) (fe : Bool)
  | commands (cs : List Command) (self : Bool)
  | one (c : Command) (fe : Bool)
  | simple (r : List Redir) (a : List Assign) (w : List Word) (fe : Bool)
  | invoke (k : Kind) (argv : List Str) (fe : Bool)
  | func (body : Command) (args : List Str) (fe : Bool)
  | nonsimple (c : Command) (fe : Bool)
  | ifs (cl : List IfClause) (fe : Bool)
  | cond (l : List AndOr)
  | forLoop (name : Str) (words : List Str) (body : List AndOr) (fe : Bool)
  | whileLoop (isWhile : Bool) (cond body : List AndOr) (status : Nat)
  | parse (inp : ι) (executed : Bool) (fe : Bool)

/-- `exec_pipelines_async` (exec.c:354-389) and `exec_commands` with `E_ASYNC`. -/
def execAsync (ps : List Pipeline) (s : St σ) : Res σ ω :=
  match E.async ps s.status s.sh with
  | (sh, st) =>
    let s := { s with status := st, sh := sh }
    match ps with
    | [.mk cs false _] => applyErr E (errConditionFor cs) s
    | _ => .ok s

/-- `CHECK_LOOP` (exec.c:1310-1320). -/
def checkLoop (s : St σ) (next : St σ → Res σ ω) (go : St σ → Res σ ω) : Res σ ω :=
  if s.breakloopnest < s.loopnest then .ok s
  else if s.exc = .cont then next { s with exc := .none }
  else if s.exc ≠ .none then .ok s
  else go s

/-- `exec_simple_command_without_words` (exec.c:698-729) and what `exec_simple_command` does with its result. -/
def withoutWords (r : List Redir) (a : List Assign) (fe : Bool) (s : St σ) : Res σ ω :=
  match E.assign a false false s.status s.sh with
  | (sh, false) => fin E (fe || !E.interactive sh) { s with status := Exit_ASSGNERR, sh := sh }
  | (sh, true) =>
    if r.isEmpty then fin E fe { s with status := E.substStatus sh, sh := sh }
    else
      match E.redirect r s.status (E.enter sh) with
      | (ch, saved, ok) =>
        let st := if ok then E.substStatus (E.undo saved ch) else Exit_REDIRERR
        fin E fe { s with status := st % 256, sh := E.join sh (E.final (E.undo saved ch)) }

/-- The end of `exec_simple_command_with_words` after the command (exec.c:793-813). -/
def afterInvoke (saved : ρ) (temp : Bool) (s : St σ) : St σ :=
  let kept := E.execRun s.sh && s.status == Exit_SUCCESS
  let sh := if kept then E.keep saved s.sh else s.sh
  let sh := E.resetExec sh
  let sh := if temp then E.closeEnv sh else sh
  { s with sh := if kept then sh else E.undo saved sh }

/-- `done1` and `done` (exec.c:806-813). -/
def cleanup (saved : ρ) (temp : Bool) (s : St σ) : St σ :=
  { s with sh := E.undo saved (if temp then E.closeEnv s.sh else s.sh) }

/-- What is executed for a name that is neither a built-in nor a function (exec.c:776-789): the kind of command, or
nothing if the handler has done it. -/
def findProgram (argv0 : Str) (argv : List Str) (s : St σ) : St σ × Option Kind :=
  match E.lookupProgram argv0 s.sh with
  | .none =>
    if E.posix s.sh then (s, some (if argv0.contains '/' then .external argv0 else .none))
    else
      match E.notFound argv s.status s.sh with
      | (sh, some st) => ({ s with status := st, sh := sh }, none)
      | (sh, none) => ({ s with sh := sh }, some (if argv0.contains '/' then .external argv0 else .none))
  | k => (s, some k)

/-- The first kind of command that is looked for (exec.c:755-757). -/
def Kind.isSpecial : Kind → Bool
  | .special => true
  | _ => false

/-- `exec_simple_command_with_words` (exec.c:738-817) and what `exec_simple_command` does with its result. -/
def withWords (rec : Task ι → St σ → Res σ ω) (r : List Redir) (a : List Assign) (argv0 : Str) (argv : List Str)
    (fe : Bool) (s : St σ) : Res σ ω :=
  match E.redirect r s.status s.sh with
  | (sh, saved, false) =>
    fin E (fe || (E.posix sh && !E.interactive sh && E.isSpecial argv0))
      { s with status := Exit_REDIRERR, sh := E.undo saved sh }
  | (sh, saved, true) =>
    let k := E.lookup argv0 sh
    let temp := !a.isEmpty && !k.isSpecial
    let sh := if temp then E.openTemp sh else sh
    match E.assign a temp true s.status sh with
    | (sh, false) =>
      let s := { s with status := Exit_ASSGNERR, sh := sh }
      fin E (fe || !E.interactive sh) (cleanup E saved temp s)
    | (sh, true) =>
      let s := { s with sh := sh }
      match (match k with
        | .none => findProgram E argv0 argv s
        | k => (s, some k)) with
      | (s, none) => fin E fe (cleanup E saved temp s)
      | (s, some k) =>
        (rec (.invoke k argv (fe && E.nothingSaved saved)) s).andThen fun s => fin E fe (afterInvoke E saved temp s)

/-- `dot_builtin` (exec.c:2062-2160) after the file has been opened. -/
def dotBuiltin (rec : Task ι → St σ → Res σ ω) (code : ι) (args : Option (List Str)) (s : St σ) : Res σ ω :=
  let sh := match args with
    | some args => E.openEnv args s.sh
    | none => s.sh
  (rec (.parse code false false)
    { s with loopnest := 0, breakloopnest := 0, noreturn := false, ser := false, sh := sh }).andThen fun s1 =>
  .ok { s1 with
    exc := if s1.exc = .ret then .none else s1.exc
    ser := s.ser
    loopnest := s.loopnest
    breakloopnest := s.breakloopnest
    noreturn := s.noreturn
    sh := if args.isSome then E.closeEnv s1.sh else s1.sh }

/-- The call of a built-in in `invoke_simple_command` (exec.c:1055-1064). -/
def callBuiltin (rec : Task ι → St σ → Res σ ω) (argv : List Str) (s : St σ) : Res σ ω :=
  match E.builtin argv s.status s.sh with
  | (sh, act) =>
    let s := { s with sh := sh }
    match act with
    | .done st => .ok { s with status := st }
    | .brk n => breakBuiltin E false n s
    | .cont n => breakBuiltin E true n s
    | .ret st => returnBuiltin E st s
    | .exit st => exitWith E st s
    | .eval code => rec (.parse code false false) s
    | .dot code args => dotBuiltin E rec code args s
    | .run k argv => rec (.invoke k argv false) s

/-- `invoke_simple_command` (exec.c:1023-1074). -/
def invoke (rec : Task ι → St σ → Res σ ω) (k : Kind) (argv : List Str) (fe : Bool) (s : St σ) : Res σ ω :=
  match k with
  | .none => fin E fe { s with status := Exit_NOTFOUND }
  | .external path =>
    match E.external path argv s.sh with
    | (st, w) => if fe then .exit st w else .ok { s with status := st, sh := E.join s.sh w }
  | .special => (callBuiltin E rec argv s).andThen (fin E fe)
  | .builtin => (callBuiltin E rec argv s).andThen (fin E fe)
  | .function body => (rec (.func body argv.tail fe) s).andThen (fin E fe)

/-- `exec_function_body` (exec.c:1171-1194). -/
def funcBody (rec : Task ι → St σ → Res σ ω) (body : Command) (args : List Str) (fe : Bool) (s : St σ) : Res σ ω :=
  (rec (.commands [body] fe)
    { s with loopnest := 0, breakloopnest := 0, noreturn := false, ser := false, sh := E.openEnv args s.sh }).andThen
  fun s1 =>
  .ok { s1 with
    exc := if s1.exc = .ret then .none else s1.exc
    ser := s.ser
    loopnest := s.loopnest
    breakloopnest := s.breakloopnest
    noreturn := s.noreturn
    sh := E.closeEnv s1.sh }

/-- `exec_for` (exec.c:1283-1347) except for the loop. -/
def execFor (rec : Task ι → St σ → Res σ ω) (name : Str) (words : Option (List Word)) (body : List AndOr) (fe : Bool)
    (s : St σ) : Res σ ω :=
  let s := { s with loopnest := s.loopnest + 1, breakloopnest := s.loopnest + 1 }
  let finish := fun (s : St σ) => fin E fe { s with loopnest := s.loopnest - 1 }
  match (match words with
    | some ws => E.expandLine ws s.status s.sh
    | none => (s.sh, some (E.positional s.sh))) with
  | (sh, none) => (applyErr E true { s with status := Exit_EXPERROR, sh := sh }).andThen finish
  | (sh, some ws) =>
    (rec (.forLoop name ws body fe) { s with sh := sh }).andThen fun s =>
    finish (if ws.isEmpty && !body.isEmpty then { s with status := Exit_SUCCESS } else s)

/-- `exec_while` (exec.c:1355-1386) except for the loop. -/
def execWhile (rec : Task ι → St σ → Res σ ω) (isWhile : Bool) (cond body : List AndOr) (fe : Bool) (s : St σ) :
    Res σ ω :=
  (rec (.whileLoop isWhile cond body Exit_SUCCESS)
    { s with loopnest := s.loopnest + 1, breakloopnest := s.loopnest + 1 }).andThen fun s =>
  fin E fe { s with loopnest := s.loopnest - 1 }

/-- `exec_case` (exec.c:1390-1431). -/
def execCase (rec : Task ι → St σ → Res σ ω) (word : Word) (items : List CaseItem) (fe : Bool) (s : St σ) : Res σ ω :=
  let fail := fun (sh : σ) => (applyErr E true { s with status := Exit_EXPERROR, sh := sh }).andThen (fin E fe)
  match E.expandOne word s.status s.sh with
  | (sh, none) => fail sh
  | (sh, some w) =>
    match findItem E w s.status items sh with
    | (sh, .fail) => fail sh
    | (sh, .body []) => fin E fe { s with status := Exit_SUCCESS, sh := sh }
    | (sh, .body (a :: l)) => (rec (.lists (a :: l) fe) { s with sh := sh }).andThen (fin E fe)
    | (sh, .nothing) => fin E fe { s with status := Exit_SUCCESS, sh := sh }

/-- `exec_funcdef` (exec.c:1434-1453). -/
def execFuncdef (name : Word) (body : Command) (fe : Bool) (s : St σ) : Res σ ω :=
  match E.expandOne name s.status s.sh with
  | (sh, none) => fin E fe { s with status := Exit_EXPERROR, sh := sh }
  | (sh, some n) =>
    match E.define n body sh with
    | (sh, true) => fin E fe { s with status := Exit_SUCCESS, sh := sh }
    | (sh, false) => fin E fe { s with status := Exit_ASSGNERR, sh := sh }

/-- A child process that executes lists: `fork_and_wait`, `exec_and_or_lists`, `exit_shell` (exec.c:1205-1224). -/
def subshell (rec : Task ι → St σ → Res σ ω) (body : List AndOr) (s : St σ) : Res σ ω :=
  match rec (.lists body true) (becomeChild (E.enter s.sh) s) with
  | .exit st w => .ok { s with status := st % 256, sh := E.join s.sh w }
  | _ => .none

/-- `exec_nonsimple_command` (exec.c:1198-1245). -/
def nonsimple (rec : Task ι → St σ → Res σ ω) (c : Command) (fe : Bool) (s : St σ) : Res σ ω :=
  match c with
  | .simple .. => .none
  | .subshell _ body =>
    if fe then rec (.lists body true) (becomeChild (E.enter s.sh) s) else subshell E rec body s
  | .group _ body => rec (.lists body fe) s
  | .ifs _ cl => rec (.ifs cl fe) s
  | .fors _ name words body => execFor E rec name words body fe s
  | .whiles _ w cond body => execWhile E rec w cond body fe s
  | .cases _ word items => execCase E rec word items fe s
  | .bracket _ e =>
    match E.bracket e s.status s.sh with
    | (sh, st) => fin E fe { s with status := st, sh := sh }
  | .funcdef _ name body => execFuncdef E name body fe s

/-- The redirections of a command. -/
def redirsOf : Command → List Redir
  | .simple r _ _ => r
  | .group r _ => r
  | .subshell r _ => r
  | .ifs r _ => r
  | .fors r _ _ _ => r
  | .whiles r _ _ _ => r
  | .cases r _ _ => r
  | .bracket r _ => r
  | .funcdef r _ _ => r

/-- `exec_one_command` (exec.c:634-660). -/
def one (rec : Task ι → St σ → Res σ ω) (c : Command) (fe : Bool) (s : St σ) : Res σ ω :=
  match c with
  | .simple r a w => (rec (.simple r a w fe) s).andThen (fin E fe)
  | c =>
    match E.redirect (redirsOf c) s.status s.sh with
    | (sh, saved, true) =>
      (rec (.nonsimple c (fe && E.nothingSaved saved)) { s with sh := sh }).andThen fun s =>
      fin E fe { s with sh := E.undo saved s.sh }
    | (sh, saved, false) =>
      (applyErr E true { s with status := Exit_REDIRERR, sh := E.undo saved sh }).andThen (fin E fe)

/-- `exec_simple_command` (exec.c:663-694). -/
def simple (rec : Task ι → St σ → Res σ ω) (r : List Redir) (a : List Assign) (w : List Word) (fe : Bool) (s : St σ) :
    Res σ ω :=
  match E.expandLine w s.status (E.resetSubst s.sh) with
  | (sh, none) => fin E fe { s with status := Exit_EXPERROR, sh := sh }
  | (sh, some []) => withoutWords E r a fe { s with sh := sh }
  | (sh, some (argv0 :: args)) => withWords E rec r a argv0 (argv0 :: args) fe { s with sh := sh }

/-- `exec_commands` (exec.c:396-482).  When the last command of a longer pipeline is executed in the shell process, the other
processes are not waited for; what they leave behind is there nevertheless in the end. -/
def commands (rec : Task ι → St σ → Res σ ω) (cs : List Command) (self : Bool) (s : St σ) : Res σ ω :=
  let short := self && !E.jobControl s.sh && !E.anyTrap s.sh && (cs.length == 1 || !E.pipefail s.sh)
  match cs with
  | [] => .none
  | [c] => (rec (.one c short) s).andThen fun s => (applyErr E (errCondition c) s).andThen (fin E self)
  | cs =>
    match allExits (cs.zipIdx.map fun ci => rec (.one ci.1 true) (becomeChild (E.enterPipe cs ci.2 s.sh) s)) with
    | none => .none
    | some rs =>
      let w := E.pipeWorld s.sh (rs.map (·.2))
      if short then .exit ((rs.map (·.1)).getLast?.getD 0) w
      else
        (applyErr E (errConditionFor cs)
          { s with status := jobStatus (E.pipefail s.sh) (rs.map (·.1)), sh := E.join s.sh w }).andThen (fin E self)

/-- `suppresserrexit = savesee, suppresserrreturn = saveser;` (exec.c:338); `s`: the state in which they were saved. -/
def unsuppress (s t : St σ) : St σ := { t with see := s.see, ser := s.ser }

/-- The status of a negated pipeline (exec.c:343-348). -/
def negate (neg : Bool) (s : St σ) : St σ :=
  if neg then { s with status := if s.status == Exit_SUCCESS then Exit_FAILURE else Exit_SUCCESS } else s

/-- `exec_pipelines` (exec.c:323-351). -/
def pipes (rec : Task ι → St σ → Res σ ω) (first : Bool) (ps : List Pipeline) (fe : Bool) (s : St σ) : Res σ ω :=
  match ps with
  | [] => fin E fe s
  | .mk cs neg cond :: rest =>
    if !first && cond == (s.status != Exit_SUCCESS) then rec (.pipes false rest fe) s
    else
      let suppress := neg || !rest.isEmpty
      let self := fe && rest.isEmpty && !neg
      (rec (.commands cs self) { s with see := s.see || suppress, ser := s.ser || suppress }).andThen fun s1 =>
      if needBreak (unsuppress s s1) then fin E fe (unsuppress s s1)
      else rec (.pipes false rest fe) (negate neg (unsuppress s s1))

/-- `exec_and_or_lists` (exec.c:308-320). -/
def lists (rec : Task ι → St σ → Res σ ω) (l : List AndOr) (fe : Bool) (s : St σ) : Res σ ω :=
  match l with
  | [] => fin E fe s
  | .mk ps async :: rest =>
    if needBreak s then fin E fe s
    else
      (if !async then rec (.pipes true ps (fe && rest.isEmpty)) s else execAsync E ps s).andThen fun s =>
      rec (.lists rest fe) s

/-- `exec_condition` (exec.c:1270-1280) without its value. -/
def cond (rec : Task ι → St σ → Res σ ω) (l : List AndOr) (s : St σ) : Res σ ω :=
  match l with
  | [] => .ok s
  | l =>
    (rec (.lists l false) { s with see := true, ser := true }).andThen fun s1 => .ok (unsuppress s s1)

/-- The value of `exec_condition` (exec.c:1270-1280) in the state after it. -/
def condValue (l : List AndOr) (s : St σ) : Bool := l.isEmpty || s.status == Exit_SUCCESS

/-- `exec_if` (exec.c:1248-1267).  `else` is a clause without condition. -/
def ifs (rec : Task ι → St σ → Res σ ω) (cl : List IfClause) (fe : Bool) (s : St σ) : Res σ ω :=
  match cl with
  | [] => fin E fe { s with status := Exit_SUCCESS }
  | .els body :: _ => if needBreak s then fin E fe s else rec (.lists body fe) s
  | .cond c body :: rest =>
    if needBreak s then fin E fe s
    else
      (rec (.cond c) s).andThen fun s => if condValue c s then rec (.lists body fe) s else rec (.ifs rest fe) s

/-- The loop of `exec_for` (exec.c:1322-1339). -/
def forLoop (rec : Task ι → St σ → Res σ ω) (name : Str) (words : List Str) (body : List AndOr) (fe : Bool) (s : St σ) :
    Res σ ω :=
  match words with
  | [] => .ok s
  | w :: ws =>
    match E.setVar name w s.sh with
    | (sh, false) =>
      (applyErr E true { s with status := Exit_ASSGNERR, sh := sh }).andThen fun s => fin E (!E.interactive s.sh) s
    | (sh, true) =>
      (rec (.lists body (fe && ws.isEmpty)) { s with sh := sh }).andThen fun s =>
      checkLoop s (rec (.forLoop name ws body fe)) (rec (.forLoop name ws body fe))

/-- The loop of `exec_while` (exec.c:1361-1380). -/
def whileLoop (rec : Task ι → St σ → Res σ ω) (isWhile : Bool) (c body : List AndOr) (status : Nat) (s : St σ) :
    Res σ ω :=
  (rec (.cond c) s).andThen fun s =>
  checkLoop s (rec (.whileLoop isWhile c body status)) fun s =>
  if condValue c s != isWhile then .ok { s with status := status }
  else
    match body with
    | [] => rec (.whileLoop isWhile c body status) s
    | body =>
      (rec (.lists body false) s).andThen fun s =>
      checkLoop s (rec (.whileLoop isWhile c body s.status)) (rec (.whileLoop isWhile c body s.status))

/-- `parse_and_exec` (yash.c:529-587) for input that is not interactive. -/
def parse (rec : Task ι → St σ → Res σ ω) (inp : ι) (executed fe : Bool) (s : St σ) : Res σ ω :=
  if needBreak s then fin E fe s
  else
    match E.parse inp s.sh with
    | (sh, .ok [] rest _) => rec (.parse rest executed fe) { s with sh := sh }
    | (sh, .ok (a :: l) rest atEof) =>
      if E.executes sh then
        (rec (.lists (a :: l) (fe && atEof)) { s with sh := sh }).andThen (rec (.parse rest true fe))
      else rec (.parse rest executed fe) { s with sh := sh }
    | (sh, .eof) => fin E fe { s with status := if executed then s.status else Exit_SUCCESS, sh := sh }
    | (sh, .syntaxError) =>
      if E.syntaxErrorExits sh then exitWith E Exit_SYNERROR { s with sh := sh }
      else fin E fe { s with status := Exit_SYNERROR, sh := sh }
    | (sh, .inputError) => fin E fe { s with status := Exit_ERROR, sh := sh }

/-- The functions, with a bound on the depth of calls. -/
def run : Nat → Task ι → St σ → Res σ ω
  | 0, _, _ => .none
  | n + 1, t, s =>
    match t with
    | .lists l fe => lists E (run n) l fe s
    | .pipes first ps fe => pipes E (run n) first ps fe s
    | .commands cs self => commands E (run n) cs self s
    | .one c fe => one E (run n) c fe s
    | .simple r a w fe => simple E (run n) r a w fe s
    | .invoke k argv fe => invoke E (run n) k argv fe s
    | .func body args fe => funcBody E (run n) body args fe s
    | .nonsimple c fe => nonsimple E (run n) c fe s
    | .ifs cl fe => ifs E (run n) cl fe s
    | .cond l => cond (run n) l s
    | .forLoop name ws body fe => forLoop E (run n) name ws body fe s
    | .whileLoop w c body st => whileLoop (run n) w c body st s
    | .parse inp executed fe => parse E (run n) inp executed fe s

end Yash.Exec
