import Verif.Path.Which
import Verif.Leave.Model
/-!
# The built-ins `.` and `exec` (exec.c)

Which file is executed in which state, and with which arguments and environment the process is replaced. What the system answers and what the
commands of the file do are parameters. Messages are left out; allocation succeeds.
-/
set_option autoImplicit false

namespace Yash.Source

abbrev Str := List Char

/-- `execstate` (exec.c:133-138). -/
structure ExecState where
  loopnest : Nat
  breakloopnest : Nat
  noreturn : Bool
  iterating : Bool
  deriving DecidableEq, Repr

/-- The state of the shell: `execstate`, `exception`, `suppresserrreturn`, `laststatus`, the positional parameters of the environments (`current_env`
is the first one), and everything else. -/
structure State (α : Type) where
  execstate : ExecState
  exc : Leave.Exc
  suppress : Bool
  laststatus : Int
  frames : List (List Str)
  rest : α
  deriving DecidableEq

/-- Errors of `execve` that are told apart. -/
inductive Errno where
  | enoent | enoexec | other
  deriving DecidableEq, Repr

/-- The environment: `posixly_correct`, `is_interactive_now`, `special_builtin_executed`, `iswdigit`, `stopped_job_count`; conversion to multibyte strings,
the arrays of directories, `is_readable_regular`, whether `open` succeeds; `exec_input` (`none` if the shell exits in it), whose second argument is
`XIO_SUBST_ALIAS`; `get_command_path`, `get_exported_value`, `environ`, the names in `last_assign`, and `execve` (`none` if the process
is replaced). -/
structure Env (α : Type) where
  posix : Bool
  interactive : Bool
  special : Bool
  isDigit : Char → Bool
  stopped : Nat
  bytes : Str → Option Str
  path : Option (List Str)
  loadpath : Option (List Str)
  readable : Str → Bool
  canOpen : Str → Bool
  execInput : Str → Bool → State α → Option (State α)
  commandPath : Str → Option Str
  exported : Str → Option Str
  environ : List Str
  assigned : List Str
  execve : Str → List Str → List Str → Option Errno

variable {α : Type}

/-- The call of `xgetopt` with `XGETOPT_POSIX` (exec.c:2068, 2194). -/
def Env.getopt (E : Env α) (opts : List Xgetopt.Opt) : Xgetopt.Config :=
  { opts := opts, posixlyCorrect := E.posix, flagPosix := true, flagDigit := false, isDigit := E.isDigit }

/-- `dot_options` (exec.c:2050-2057). -/
def dotOptions : List Xgetopt.Opt :=
  [⟨'A', some "no-alias".toList, .none, false⟩, ⟨'L', some "autoload".toList, .none, false⟩, ⟨'-', some "help".toList, .none, false⟩]

/-- `exec_options` (exec.c:2173-2181). -/
def execOptions : List Xgetopt.Opt :=
  [⟨'a', some "as".toList, .required, false⟩, ⟨'c', some "clear".toList, .none, false⟩, ⟨'f', some "force".toList, .none, false⟩,
    ⟨'-', some "help".toList, .none, false⟩]

/-- The result of `.`: it returns with a status, having executed a file or not, or the shell exits, with a status or in the file. -/
inductive DotResult (α : Type) where
  | stay (executed : Option Str) (s : State α) (status : Int)
  | exit (status : Int)
  | exitIn (executed : Str)
  | help
  deriving DecidableEq

/-- `special_builtin_error` (builtin.c:307-312). -/
def specialError (E : Env α) (s : State α) : DotResult α :=
  if E.posix && E.special && !E.interactive then .exit 2 else .stay none s 2

/-- The label `error` (exec.c:2156-2160). -/
def dotError (E : Env α) (s : State α) : DotResult α :=
  if E.special && !E.interactive then .exit 1 else .stay none s 1

/-- The file to open (exec.c:2099-2120); `none` is an error. -/
def dotPath (E : Env α) (autoload : Bool) (filename mbs : Str) : Option Str :=
  if autoload then Path.which mbs E.loadpath E.readable
  else if !filename.contains '/' then
    match Path.which mbs E.path E.readable with
    | some path => some path
    | none => if !E.posix then some mbs else none
  else some mbs

/-- `reset_execstate(false)` (exec.c:259-266). -/
def resetExecstate (x : ExecState) : ExecState := { x with loopnest := 0, breakloopnest := 0, noreturn := false }

/-- `cancel_return` (exec.c:291-295). -/
def cancelReturn (s : State α) : State α := if s.exc = .ret then { s with exc := .none } else s

/-- The execution of the file (exec.c:2130-2154); `args` are the positional parameters if there are any. Of an environment, only the positional
parameters are modelled. -/
def dotRun (E : Env α) (path : Str) (alias : Bool) (args : List Str) (s : State α) : DotResult α :=
  let hasArgs := !args.isEmpty
  let s := if hasArgs then { s with frames := args :: s.frames } else s
  let saveexecstate := s.execstate
  let s := { s with execstate := resetExecstate s.execstate }
  let saveser := s.suppress
  let s := { s with suppress := false }
  match E.execInput path alias s with
  | none => .exitIn path
  | some s =>
    let s := cancelReturn s
    let s := { s with suppress := saveser }
    let s := { s with execstate := saveexecstate }
    let s := if hasArgs then { s with frames := s.frames.tail } else s
    .stay (some path) s s.laststatus

/-- `dot_builtin` (exec.c:2062-2161). -/
def dotBuiltin (E : Env α) (args : List Str) (s : State α) : DotResult α :=
  let r := Xgetopt.Spec.parse (E.getopt dotOptions) none args
  if r.reports.any fun o => o.1.short == '-' then .help
  else
    match r.final with
    | .error _ => specialError E s
    | .done =>
      let alias := !(r.reports.any fun o => o.1.short == 'A')
      let autoload := r.reports.any fun o => o.1.short == 'L'
      match r.operands with
      | [] => specialError E s
      | filename :: args =>
        if !args.isEmpty && E.posix then specialError E s
        else
          match E.bytes filename with
          | none => .stay none s 2
          | some mbs =>
            match dotPath E autoload filename mbs with
            | none => dotError E s
            | some path => if E.canOpen path then dotRun E path alias args s else dotError E s

/-- The result of `exec`: it returns with a status, the shell exits with a status, or the process is replaced: the file, the arguments and
the environment. -/
inductive ExecResult where
  | stay (status : Int)
  | exit (status : Int)
  | replaced (path : Str) (argv env : List Str)
  | help
  deriving DecidableEq

/-- `exec_fall_back_on_sh` (exec.c:1129-1164) on a system with `/proc/self/exe`. `none` if it fails. -/
def fallBackOnSh (E : Env α) (argv env : List Str) (path : Str) : Option ExecResult :=
  let args := "sh".toList :: "-".toList :: (if path = "--".toList then "./--".toList else path) :: argv.drop 1
  if (E.execve "/proc/self/exe".toList args env).isNone then some (.replaced "/proc/self/exe".toList args env)
  else
    match E.commandPath "sh".toList with
    | none => none
    | some sh => if (E.execve sh args env).isNone then some (.replaced sh args env) else none

/-- `exec_external_program` (exec.c:1082-1115): the replaced process, or the status. Arguments that cannot be converted are empty. -/
def execExternal (E : Env α) (path argv0 : Str) (args : List Str) (env : List Str) : ExecResult :=
  let argv := argv0 :: args.map fun a => (E.bytes a).getD []
  match E.execve path argv env with
  | none => .replaced path argv env
  | some .enoent => .stay 127
  | some .other => .stay 126
  | some .enoexec =>
    match fallBackOnSh E argv env path with
    | some r => r
    | none => .stay 126

/-- The loop over `last_assign` (exec.c:2276-2284). -/
def assignedEnv (E : Env α) : List Str → List Str
  | [] => []
  | name :: names =>
    match E.exported name with
    | some value => (name ++ '=' :: value) :: assignedEnv E names
    | none => assignedEnv E names

/-- The label `error1` (exec.c:2302-2305). -/
def execFailed (E : Env α) (err : Int) : ExecResult := if E.posix || !E.interactive then .exit err else .stay err

/-- `argv[0]` of the new process (exec.c:2244-2255). -/
def argv0Of (E : Env α) (mbsname : Str) : Option Str → Option Str
  | none => some mbsname
  | some a => E.bytes a

/-- `exec_builtin_2` (exec.c:2232-2306). -/
def execBuiltin2 (E : Env α) (name : Str) (args : List Str) (as : Option Str) (clear : Bool) : ExecResult :=
  match E.bytes name with
  | none => execFailed E 126
  | some mbsname =>
    match argv0Of E mbsname as with
    | none => execFailed E 126
    | some argv0 =>
      match (if name.contains '/' then some mbsname else E.commandPath mbsname) with
      | none => execFailed E 127
      | some path =>
        let env := if clear then assignedEnv E E.assigned else E.environ
        match execExternal E path argv0 args env with
        | .stay err => execFailed E err
        | r => r

/-- The value of `as` after the loop over the options (exec.c:2189-2206): the argument of the last `-a`. -/
def lastAs : List Xgetopt.Report → Option Str → Option Str
  | [], as => as
  | (o, arg) :: rs, as => lastAs rs (if o.short = 'a' then arg else as)

/-- `exec_builtin` (exec.c:2187-2226). `exec_builtin_executed`, by which redirections are kept, is in the model of redirections. -/
def execBuiltin (E : Env α) (args : List Str) : ExecResult :=
  let r := Xgetopt.Spec.parse (E.getopt execOptions) none args
  if r.reports.any fun o => o.1.short == '-' then .help
  else
    match r.final with
    | .error _ => if E.posix && E.special && !E.interactive then .exit 2 else .stay 2
    | .done =>
      match r.operands with
      | [] => .stay 0
      | name :: args =>
        if !E.posix && E.interactive && !(r.reports.any fun o => o.1.short == 'f') && decide (E.stopped > 0) then .stay 1
        else execBuiltin2 E name args (lastAs r.reports none) (r.reports.any fun o => o.1.short == 'c')

end Yash.Source
