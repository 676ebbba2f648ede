import Verif.Shopt.Model
import Verif.Path.Which
/-!
# Model of the start of the shell (`main` in `yash.c`)

What the arguments mean, what is executed and which initialization files are executed before. The configuration is the one with line editing.

Strings are wide strings; arguments that cannot be converted are left out. What the operating system answers and what the execution of a file does
are parameters (`Env`). The initialization of modules that does not depend on the arguments (yash.c:139-148), signals and the text of messages are
left out. `none` as a result means reading outside an array.
-/
set_option autoImplicit false

namespace Yash.Startup

open Shopt (Str Var State Invocation World Status parseOptions setLineedit)

/-- The shell: the options and the positional parameters, and everything else (variables, functions, files...). -/
structure Sys (α : Type) where
  opts : State
  rest : α

/-- What opening the script file results in: success, `ENOENT` or another error. -/
inductive Opening where
  | opened | enoent | otherError
  deriving DecidableEq, Repr

/-- The environment of the start. -/
structure Env (α : Type) where
  /-- letters, and whether `/dev/tty` can be opened -/
  world : World
  /-- `isatty` for the standard input and the standard error -/
  ttyIn : Bool
  ttyErr : Bool
  /-- `getuid`, `geteuid`, `getgid` and `getegid` -/
  uid : Nat
  euid : Nat
  gid : Nat
  egid : Nat
  /-- whether printing the version or the help succeeds -/
  prints : Bool
  /-- opening the script file (yash.c:200) -/
  script : Str → Opening
  /-- `getvar` -/
  var : Sys α → Str → Option Str
  /-- `parse_and_expand_string`, which can change the state -/
  expand : Sys α → Str → Sys α × Option Str
  /-- `malloc_wcstombs`: `none` if the string cannot be converted -/
  bytes : Str → Option Str
  /-- whether `open` succeeds -/
  canOpen : Sys α → Str → Bool
  /-- `exec_input` for a file followed by `cancel_return`; `none` if the shell exits in it -/
  run : Sys α → Str → Option (Sys α)
  /-- `get_path_array(PA_LOADPATH)` -/
  loadpath : Sys α → Option (List Str)
  /-- `is_readable_regular` -/
  readable : Sys α → Str → Bool

/-- The result of executing a file that may not exist: the files that have been executed, whether one has been found, and the new state (`none` if the
shell has exited). -/
structure Out (α : Type) where
  files : List Str
  found : Bool
  state : Option (Sys α)

variable {α : Type}

/-- `execute_file_mbs` (yash.c:354-368). -/
def executeFileMbs (E : Env α) (path : Option Str) (s : Sys α) : Out α :=
  match path with
  | none => ⟨[], false, some s⟩
  | some p => if E.canOpen s p then ⟨[p], true, E.run s p⟩ else ⟨[], false, some s⟩

/-- `execute_file` (yash.c:341-350). -/
def executeFile (E : Env α) (path : Option Str) (s : Sys α) : Out α :=
  match path with
  | none => ⟨[], false, some s⟩
  | some p => executeFileMbs E (E.bytes p) s

/-- `execute_file_in` (yash.c:319-337). The outer `none` means reading outside the buffer. -/
def executeFileIn (E : Env α) (dirVar : Str) (path : Str) (s : Sys α) : Option (Out α) :=
  match E.var s dirVar with
  | none => some ⟨[], false, some s⟩
  | some directory =>
    if directory = [] then some ⟨[], false, some s⟩
    else
      match directory[directory.length - 1]? with
      | none => none
      | some c =>
        let full := (if c ≠ '/' then directory ++ ['/'] else directory) ++ path
        some (executeFile E (some full) s)

/-- `if (execute_file_in(...)) return;` followed by more of the function. -/
def orElse (r : Option (Out α)) (next : Sys α → Option (Out α)) : Option (Out α) :=
  match r with
  | none => none
  | some o =>
    if o.found then some o
    else
      match o.state with
      | none => some o
      | some s => (next s).map fun o' => { o' with files := o.files ++ o'.files }

/-- `execute_profile` (yash.c:260-275). -/
def executeProfile (E : Env α) (profile : Option Str) (s : Sys α) : Option (Out α) :=
  if profile.isSome then some (executeFile E profile s)
  else
    orElse (executeFileIn E "XDG_CONFIG_HOME".toList "yash/profile".toList s) fun s =>
      orElse (executeFileIn E "HOME".toList ".config/yash/profile".toList s) fun s =>
        executeFileIn E "HOME".toList ".yash_profile".toList s

/-- `execute_rcfile` (yash.c:284-316). -/
def executeRcfile (E : Env α) (rcfile : Option Str) (s : Sys α) : Option (Out α) :=
  if s.opts.val .posixlycorrect then
    match E.var s "ENV".toList with
    | none => some ⟨[], false, some s⟩
    | some env =>
      let (s, path) := E.expand s env
      some (executeFile E path s)
  else if rcfile.isSome then some (executeFile E rcfile s)
  else
    orElse (executeFileIn E "XDG_CONFIG_HOME".toList "yash/rc".toList s) fun s =>
      orElse (executeFileIn E "HOME".toList ".config/yash/rc".toList s) fun s =>
        orElse (executeFileIn E "HOME".toList ".yashrc".toList s) fun s =>
          some (executeFileMbs E (Path.which "initialization/default".toList (E.loadpath s) (E.readable s)) s)

/-- The part of a string after the last slash: `wcsrchr(s, L'/') + 1`, or the whole string (yash.c:124-129). -/
def afterSlash (s : Str) : Str :=
  if s.contains '/' then (s.reverse.takeWhile (· ≠ '/')).reverse else s

/-- Whether the name of the program enables the POSIXly-correct mode (yash.c:132-137). -/
def namedSh (name : Str) : Bool :=
  let short := afterSlash name
  let shortest := if short.head? = some '-' then short.drop 1 else short
  shortest = "sh".toList

/-- What is executed: a command of the command line with its name in messages, the standard input, or a file. -/
inductive Input where
  | command (text inputName : Str)
  | stdin
  | file (path : Str)
  deriving DecidableEq, Repr

/-- What has been settled before the initialization files are executed. -/
structure Start where
  input : Input
  /-- `command_name`: the value of `$0` -/
  name : Str
  opts : State

/-- What the shell does: it exits with a status, or executes the files in order and then, unless it exits in one of them, the input in the state. -/
inductive Outcome (α : Type) where
  | exit (status : Nat)
  | started (start : Start) (files : List Str) (state : Option (Sys α))

/-- The exit status of a failure of option parsing. -/
def statusNumber : Status → Nat
  | .success => 0
  | .failure => 1
  | .error => 2

/-- What is executed (yash.c:170-209): `argc` is the number of arguments including the name, `ops` are the arguments from `xoptind` on. Of the result,
the first part is the input, the value of `$0` and the options, the second the arguments from the new `xoptind` on. A number is the status
with which the shell exits. -/
def chooseInput (E : Env α) (argc : Nat) (name : Str) (inv : Invocation) (s : State) (ops : List Str) : Option (Nat ⊕ (Start × List Str)) :=
  if s.val .cmdline && s.val .stdin then some (.inl 2)
  else if s.val .cmdline then
    match ops with
    | [] => some (.inl 2)
    | [cmd] => some (.inr (⟨.command cmd (if s.val .posixlycorrect then "sh -c".toList else "yash -c".toList), name, s⟩, []))
    | cmd :: n :: rest => some (.inr (⟨.command cmd n, n, s⟩, rest))
  else
    let none_left := argc ≠ 0 && ops.isEmpty
    let s := if none_left then s.set .stdin true else s
    if s.val .stdin then
      let s := if !inv.interactiveSet && none_left && E.ttyIn && E.ttyErr then s.set .interactive true else s
      some (.inr (⟨.stdin, name, s⟩, ops))
    else
      match ops with
      | [] => none
      | path :: rest =>
        match E.script path with
        | .opened => some (.inr (⟨.file path, path, s⟩, rest))
        | .enoent => some (.inl 127)
        | .otherError => some (.inl 126)

/-- Line editing, job control and positional parameters (yash.c:211-228). -/
def settle (E : Env α) (inv : Invocation) (s : State) (ops : List Str) : State :=
  let s :=
    if !inv.lineeditSet && s.lineedit = .noLineEdit then
      if s.val .interactive && E.ttyIn && E.ttyErr then setLineedit .vi s else s
    else s
  let s := if !inv.jobControlSet then s.set .monitor (s.val .interactive) else s
  let s := if s.val .monitor then (if E.world.tty then s else s.set .monitor false) else s
  { s with params := ops }

/-- Whether the real and the effective ids are the same (yash.c:231, 234). -/
def sameIds (E : Env α) : Bool := E.uid = E.euid && E.gid = E.egid

/-- The profile (yash.c:230-232). -/
def runProfile (E : Env α) (inv : Invocation) (s : Sys α) : Option (List Str × Option (Sys α)) :=
  if s.opts.val .login && !s.opts.val .posixlycorrect && !inv.noprofile then
    if sameIds E then (executeProfile E inv.profile s).map fun o => (o.files, o.state) else some ([], some s)
  else some ([], some s)

/-- The initialization files (yash.c:230-235). -/
def runInit (E : Env α) (inv : Invocation) (s : Sys α) : Option (List Str × Option (Sys α)) :=
  match runProfile E inv s with
  | none => none
  | some (files, none) => some (files, none)
  | some (files, some s) =>
    if s.opts.val .interactive && !inv.norcfile then
      if sameIds E then (executeRcfile E inv.rcfile s).map fun o => (files ++ o.files, o.state) else some (files, some s)
    else some (files, some s)

/-- `main` (yash.c:93-246). `s` is the state of the options before the arguments are parsed, `rest` is the rest of the state after the initialization
of variables. -/
def main (E : Env α) (s : State) (rest : α) (argv : List Str) : Option (Outcome α) :=
  let name := argv.headD []
  let s := s.set .login (name.head? = some '-')
  let s := if namedSh name then s.set .posixlycorrect true else s
  match parseOptions E.world (some {}) (argv.drop 1) s with
  | none => none
  | some ((_, none, _), _) => none
  | some ((st, some inv, s), ops) =>
    if st ≠ .success then some (.exit (statusNumber st))
    else if inv.version || inv.help then some (.exit (if E.prints then 0 else 1))
    else
      match chooseInput E argv.length name inv s ops with
      | none => none
      | some (.inl n) => some (.exit n)
      | some (.inr (start, ops)) =>
        let opts := settle E inv start.opts ops
        (runInit E inv ⟨opts, rest⟩).map fun r => .started { start with opts } r.1 r.2

end Yash.Startup
