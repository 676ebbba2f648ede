import Verif.Path.Which
import Verif.Xgetopt.Spec
/-!
# The cache of home directories and the `hash` built-in (path.c)

The table of commands is that of the model of variables and of the command search (C33). Tables are lists, so the order in which their entries are printed is that of the
list; the order in a hashtable is another one. Conversions between wide and multibyte strings are the identity, and printing succeeds. Messages are only counted.
-/
set_option autoImplicit false

namespace Yash.Hash

open Variable (Word Map Shell get put remove)

/-- `posixly_correct`, `iswdigit`, what `get_builtin` finds, `is_executable_regular`, and the home directories that `getpwnam` finds. -/
structure Env where
  posix : Bool
  isDigit : Char → Bool
  builtin : Word → Bool
  exec : Word → Bool
  passwd : Word → Option Word

/-- The shell with `cmdhash`, and `homedirhash` (path.c:492). -/
structure State where
  sh : Shell
  homes : Map Word

/-- `get_home_directory` (path.c:512-543). -/
def getHomeDirectory (E : Env) (homes : Map Word) (user : Word) (force : Bool) : Map Word × Option Word :=
  match (if force then none else get homes user) with
  | some path => (homes, some path)
  | none =>
    match E.passwd user with
    | none => (homes, none)
    | some dir => (put homes user dir, some dir)

/-- `forget_home_directory` (path.c:546-549). -/
def forgetHomeDirectory (homes : Map Word) (user : Word) : Map Word := remove homes user

/-- `hash_options` (path.c:1561-1569). -/
def hashOptions : List Xgetopt.Opt :=
  [⟨'a', some "all".toList, .none, false⟩, ⟨'d', some "directory".toList, .none, false⟩, ⟨'r', some "remove".toList, .none, true⟩, ⟨'-', some "help".toList, .none, false⟩]

/-- The call of `xgetopt` (path.c:1581). -/
def Env.getopt (E : Env) : Xgetopt.Config :=
  { opts := hashOptions, posixlyCorrect := E.posix, flagPosix := false, flagDigit := false, isDigit := E.isDigit }

/-- The result: the state, the lines that are printed and the exit status. `help` prints the help; `abort` is a failed assertion. -/
inductive Result where
  | done (s : State) (out : List Word) (status : Nat)
  | help
  | abort

/-- The end of `hash_builtin` (path.c:1648); `errors` is `yash_error_message_count`. -/
def finish (s : State) (out : List Word) (errors : Nat) : Result := .done s out (if errors == 0 then 0 else 1)

/-- `print_command_paths` (path.c:1654-1669): the lines. -/
def printCommandPaths (E : Env) (all : Bool) : Map Word → List Word
  | [] => []
  | (name, path) :: m =>
    if path.head? ≠ some '/' then printCommandPaths E all m
    else if all || !E.builtin name then path :: printCommandPaths E all m
    else printCommandPaths E all m

/-- `print_home_directories` (path.c:1674-1685): the lines. -/
def printHomeDirectories : Map Word → List Word
  | [] => []
  | (name, dir) :: m => ('~' :: name ++ '=' :: dir) :: printHomeDirectories m

/-- The loop for `hash -d` (path.c:1610-1612). -/
def rememberHomes (E : Env) (homes : Map Word) (errors : Nat) : List Word → Map Word × Nat
  | [] => (homes, errors)
  | u :: us =>
    match getHomeDirectory E homes u true with
    | (homes, some _) => rememberHomes E homes errors us
    | (homes, none) => rememberHomes E homes (errors + 1) us

/-- The loop for `hash` with operands (path.c:1632-1646). -/
def rememberCommands (E : Env) (sh : Shell) (errors : Nat) : List Word → Option (Shell × Nat)
  | [] => some (sh, errors)
  | n :: ns =>
    if n.contains '/' then rememberCommands E sh (errors + 1) ns
    else
      match Path.getCommandPath E.exec sh n true with
      | none => none
      | some (sh, some _) => rememberCommands E sh errors ns
      | some (sh, none) => rememberCommands E sh (errors + 1) ns

/-- `hash_builtin` (path.c:1575-1649). -/
def hashBuiltin (E : Env) (args : List Word) (s : State) : Result :=
  let r := Xgetopt.Spec.parse E.getopt none args
  if r.reports.any fun o => o.1.short == '-' then .help
  else
    match r.final with
    | .error _ => .done s [] 2
    | .done =>
      let all := r.reports.any fun o => o.1.short == 'a'
      let dir := r.reports.any fun o => o.1.short == 'd'
      let rem := r.reports.any fun o => o.1.short == 'r'
      if all && !r.operands.isEmpty then .done s [] 2
      else if dir then
        if rem then
          if r.operands.isEmpty then finish { s with homes := [] } [] 0
          else finish { s with homes := r.operands.foldl forgetHomeDirectory s.homes } [] 0
        else if r.operands.isEmpty then finish s (printHomeDirectories s.homes) 0
        else
          let q := rememberHomes E s.homes 0 r.operands
          finish { s with homes := q.1 } [] q.2
      else if rem then
        if r.operands.isEmpty then finish { s with sh := { s.sh with cmdhash := [] } } [] 0
        else finish { s with sh := { s.sh with cmdhash := r.operands.foldl remove s.sh.cmdhash } } [] 0
      else if r.operands.isEmpty then finish s (printCommandPaths E all s.sh.cmdhash) 0
      else
        match rememberCommands E s.sh 0 r.operands with
        | none => .abort
        | some q => finish { s with sh := q.1 } [] q.2

/-- What happens to the cache of home directories: a `~user` is expanded (expand.c:642), or `hash` is executed; the users may change in between. -/
inductive Event where
  | tilde (E : Env) (user : Word)
  | hash (E : Env) (args : List Word)

/-- One event, and the directory that is found. -/
def runEvent (s : State) : Event → Option (State × Option Word)
  | .tilde E user => let q := getHomeDirectory E s.homes user false; some ({ s with homes := q.1 }, q.2)
  | .hash E args =>
    match hashBuiltin E args s with
    | .done s _ _ => some (s, none)
    | .help => some (s, none)
    | .abort => none

end Yash.Hash
