import Verif.Syntax.Ast
/-!
# What the execution of commands is based on (`exec.c`)

Single steps (expansions, redirections, assignments, programs, built-ins that are not about control flow) are functions on an
opaque state.
-/
set_option autoImplicit false

namespace Yash.Exec
open Yash.Syntax

abbrev Str := List Char

/-- `commandinfo_T` (exec.c:106-113): what a command name was found to be. -/
inductive Kind where
  | none
  | external (path : Str)
  | special
  | builtin
  | function (body : Command)

/-- What a built-in does.  `break`, `continue`, `return`: exec.c:1859-1979, called with valid operands (`brk n` is
`break n`); `eval`: exec.c:2010-2039; `dot`: exec.c:2062-2160, with the arguments if there are any; `run`: the `command`
built-in executing another command (exec.c:2423-2441); `exit`: the `exit` built-in (yash.c:614-659), `exec` replacing the
process, and the errors of special built-ins that end the shell (builtin.c:307-312). -/
inductive Act (ι : Type) where
  | done (st : Nat)
  | brk (n : Nat)
  | cont (n : Nat)
  | ret (st : Nat)
  | exit (st : Nat)
  | eval (code : ι)
  | dot (code : ι) (args : Option (List Str))
  | run (k : Kind) (argv : List Str)

/-- The result of `read_and_parse` (parser.c:738, used in yash.c:548-583).  `atEof`: the end of the input has been seen. -/
inductive Parsed (ι : Type) where
  | ok (l : List AndOr) (rest : ι) (atEof : Bool)
  | eof
  | syntaxError
  | inputError

/-- What single steps do.  `σ`: the state of a shell process (variables, functions, options, open files, and so on), except for
the global variables modelled below; `ω`: what is left when the process has ended; `ρ`: saved descriptors; `ι`: unread
input.  Functions with a status get the value of `laststatus`. -/
structure Shell (σ ω ρ ι : Type) where
  /-- What is left if the process ends in this state. -/
  final : σ → ω
  /-- Waits for a child process that has left this behind. -/
  join : σ → ω → σ
  /-- `expand_line`; nothing on error. -/
  expandLine : List Word → Nat → σ → σ × Option (List Str)
  /-- `expand_single`; nothing on error. -/
  expandOne : Word → Nat → σ → σ × Option Str
  /-- Expands a pattern and matches the string against it; nothing on error. -/
  matchOne : Str → Word → Nat → σ → σ × Option Bool
  /-- `do_assignments` with its arguments `temp` and `export`; false on error. -/
  assign : List Assign → Bool → Bool → Nat → σ → σ × Bool
  /-- `open_redirections`; false on error. -/
  redirect : List Redir → Nat → σ → σ × ρ × Bool
  /-- The saved descriptors are `NULL`. -/
  nothingSaved : ρ → Bool
  /-- `undo_redirections`. -/
  undo : ρ → σ → σ
  /-- `clear_savefd`. -/
  keep : ρ → σ → σ
  /-- `lastcmdsubstatus = Exit_SUCCESS`. -/
  resetSubst : σ → σ
  /-- `lastcmdsubstatus`. -/
  substStatus : σ → Nat
  /-- `search_command` for built-ins and functions. -/
  lookup : Str → σ → Kind
  /-- `search_command` for programs. -/
  lookupProgram : Str → σ → Kind
  /-- `is_special_builtin`. -/
  isSpecial : Str → Bool
  /-- `command_not_found_handler`: its status if there is a handler. -/
  notFound : List Str → Nat → σ → σ × Option Nat
  /-- Runs a program: its status and what it leaves behind. -/
  external : Str → List Str → σ → Nat × ω
  /-- Calls a built-in. -/
  builtin : List Str → Nat → σ → σ × Act ι
  /-- `exec_builtin_executed`. -/
  execRun : σ → Bool
  /-- `exec_builtin_executed = false`. -/
  resetExec : σ → σ
  /-- `special_builtin_error` exits. -/
  fatal : σ → Bool
  /-- `open_new_environment`: a temporary one, or one for a function or script with arguments. -/
  openTemp : σ → σ
  openEnv : List Str → σ → σ
  /-- `close_current_environment`. -/
  closeEnv : σ → σ
  /-- `become_child`, except for the variables below. -/
  enter : σ → σ
  /-- The state in which a command of a pipeline starts. -/
  enterPipe : List Command → Nat → σ → σ
  /-- What the processes of a pipeline leave behind together. -/
  pipeWorld : σ → List ω → ω
  /-- Starts a job in the background: the status and the new state. -/
  async : List Pipeline → Nat → σ → σ × Nat
  /-- The positional parameters. -/
  positional : σ → List Str
  /-- `set_variable` for the variable of a `for` loop; false on error. -/
  setVar : Str → Str → σ → σ × Bool
  /-- `exec_double_bracket`. -/
  bracket : DbExp → Nat → σ → σ × Nat
  /-- `define_function`; false on error. -/
  define : Str → Command → σ → σ × Bool
  /-- `read_and_parse`. -/
  parse : ι → σ → σ × Parsed ι
  /-- `posixly_correct`, `is_interactive_now`, `doing_job_control_now`, `any_trap_set`, `shopt_pipefail`, `shopt_errexit`,
  `shopt_errreturn`. -/
  posix : σ → Bool
  interactive : σ → Bool
  jobControl : σ → Bool
  anyTrap : σ → Bool
  pipefail : σ → Bool
  errexit : σ → Bool
  errreturn : σ → Bool
  /-- `shopt_exec || is_interactive`. -/
  executes : σ → Bool
  /-- `shell_initialized && !is_interactive_now`. -/
  syntaxErrorExits : σ → Bool

end Yash.Exec
