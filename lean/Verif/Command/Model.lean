import Verif.Path.Which
import Verif.Path.Cd
import Verif.Alias.Builtin
import Verif.Syntax.Lex
/-!
# The `command` and `type` built-ins (exec.c)

Strings are wide strings; conversion to multibyte strings is the identity. Messages on the standard error are left out, writing to the standard output never fails,
and the help is not modelled. What can be found out about files is a parameter.
-/
set_option autoImplicit false

namespace Yash.Command

open Yash.Variable (Word Shell)
open Yash.Path (BuiltinType CommandInfo SearchType searchCommand which getCommandPath getvar)
open Yash.Syntax (reservedWord)

abbrev Str := List Char

/-- What the built-ins depend on: the locale and `posixly_correct` (in `config`), the aliases, `is_executable_regular`, the built-ins and functions that are defined, the
directories of the system's default path, the paths that name the current directory (`is_same_file(path, ".")`), and the result of `xgetcwd`. -/
structure Env where
  config : Alias.Config
  aliases : List Alias.Alias
  exec : Word → Bool
  builtins : Word → Option BuiltinType
  functions : Word → Bool
  stdpath : Option (List Word)
  sameAsDot : Word → Bool
  cwd : Option Word

/-- `command_options` (exec.c:2317-2331). -/
def commandOptions : List Xgetopt.Opt :=
  [⟨'a', some "alias".toList, .none, false⟩, ⟨'b', some "builtin-command".toList, .none, false⟩, ⟨'e', some "external-command".toList, .none, false⟩,
    ⟨'f', some "function".toList, .none, false⟩, ⟨'k', some "keyword".toList, .none, false⟩, ⟨'p', some "standard-path".toList, .none, true⟩,
    ⟨'v', some "identify".toList, .none, true⟩, ⟨'V', some "verbose-identify".toList, .none, true⟩, ⟨'-', some "help".toList, .none, false⟩]

/-- The call of `xgetopt` (exec.c:2352). -/
def Env.getopt (E : Env) : Xgetopt.Config :=
  { opts := commandOptions, posixlyCorrect := E.config.posix, flagPosix := true, flagDigit := false, isDigit := E.config.isDigit }

/-- `search_command` (exec.c:890-975). -/
def search (E : Env) (sh : Shell) (name : Word) (t : SearchType) : Option (Shell × CommandInfo) :=
  searchCommand E.exec E.builtins E.functions E.stdpath E.config.posix sh name t

/-- The path that `print_command_absolute_path` makes (exec.c:2528-2563). -/
def absolutePath (E : Env) (sh : Shell) (path : Word) : Word :=
  if path.head? = some '/' then path
  else
    let abspath :=
      match getvar sh "PWD".toList with
      | some pwd => if E.sameAsDot pwd then pwd else []
      | none => []
    let abspath := if abspath.isEmpty then E.cwd.getD ['.'] else abspath
    let abspath := if abspath.isEmpty || abspath.getLast? != some '/' then abspath ++ ['/'] else abspath
    abspath ++ path

/-- `print_command_path` (exec.c:2565-2572). -/
def printCommandPath (name path : Word) (human : Bool) : Str :=
  if human then name ++ ": an external command at ".toList ++ path ++ ['\n'] else path ++ ['\n']

/-- The path of a substitutive built-in (exec.c:2495-2499). -/
def substitutePath (E : Env) (sh : Shell) (name : Word) (t : SearchType) : Option (Shell × Option Word) :=
  if t.stdpath then some (sh, which name E.stdpath E.exec) else getCommandPath E.exec sh name false

/-- `print_alias_if_defined` (alias.c:397-409). -/
def printAlias (E : Env) (name : Word) (human : Bool) : Option Str :=
  if human then
    match Alias.lookup E.aliases name with
    | some a => if a.isGlobal then none else some (name ++ ": an alias for `".toList ++ a.value ++ "'\n".toList)
    | none => none
  else Alias.printIfDefined E.config name E.aliases

/-- `print_command_info` (exec.c:2440-2525): what is printed, and whether the command was found. The result `none` is a failed assertion. -/
def printCommandInfo (E : Env) (sh : Shell) (name : Word) (t : SearchType) (aliases keywords human : Bool) : Option (Shell × Str × Bool) :=
  if keywords && reservedWord name != .word then
    some (sh, if human then name ++ ": a shell keyword\n".toList else name ++ ['\n'], true)
  else
    match if aliases then printAlias E name human else none with
    | some out => some (sh, out, true)
    | none =>
      match search E sh name t with
      | none => none
      | some (sh, .none) => some (sh, [], false)
      | some (sh, .external path) => some (sh, printCommandPath name (absolutePath E sh path) human, true)
      | some (sh, .builtin .special) => some (sh, if human then name ++ ": a special built-in\n".toList else name ++ ['\n'], true)
      | some (sh, .builtin .mandatory) => some (sh, if human then name ++ ": a mandatory built-in\n".toList else name ++ ['\n'], true)
      | some (sh, .builtin .elective) => some (sh, if human then name ++ ": an elective built-in\n".toList else name ++ ['\n'], true)
      | some (sh, .builtin .extension) => some (sh, if human then name ++ ": an extension built-in\n".toList else name ++ ['\n'], true)
      | some (sh, .builtin .substitutive) =>
        match substitutePath E sh name t with
        | none => none
        | some (sh, none) => some (sh, if human then name ++ ": a substitutive built-in (not found in $PATH)\n".toList else name ++ ['\n'], true)
        | some (sh, some path) => some (sh, if human then name ++ ": a substitutive built-in for ".toList ++ path ++ ['\n'] else path ++ ['\n'], true)
      | some (sh, .function) => some (sh, if human then name ++ ": a function\n".toList else name ++ ['\n'], true)

/-- The loop over the operands (exec.c:2409-2415). -/
def printLoop (E : Env) (t : SearchType) (aliases keywords human : Bool) : List Word → Shell → Option (Shell × Str × Bool)
  | [], sh => some (sh, [], true)
  | name :: names, sh =>
    match printCommandInfo E sh name t aliases keywords human with
    | none => none
    | some (sh, out, ok) =>
      match printLoop E t aliases keywords human names sh with
      | none => none
      | some (sh, out', ok') => some (sh, out ++ out', ok && ok')

/-- What an invocation does: it does nothing and returns 0 or 2 (`Exit_ERROR`), it executes a command with the arguments (including the name), or it prints
and returns 0 (`ok`) or 1 (`Exit_FAILURE`). -/
inductive Outcome where
  | nothing
  | error
  | run (sh : Shell) (info : CommandInfo) (argv : List Word)
  | printed (sh : Shell) (out : Str) (ok : Bool)
  | help

/-- `printinfo` and `humanfriendly` after the options (exec.c:2345, 2360-2361). -/
def modes (letters : List Char) (m : Bool × Bool) : Bool × Bool :=
  letters.foldl (fun m c => if c = 'v' then (true, false) else if c = 'V' then (true, true) else m) m

/-- `command_builtin` (exec.c:2342-2420) and the search of `command_builtin_execute` (exec.c:2425-2442). The result `none` is a failed assertion. -/
def commandBuiltin (E : Env) (isType : Bool) (args : List Word) (sh : Shell) : Option Outcome :=
  let r := Xgetopt.Spec.parse E.getopt none args
  let letters := r.reports.map fun o => o.1.short
  if letters.contains '-' then some .help
  else
    match r.final with
    | .error _ => some .error
    | .done =>
      let (printinfo, human) := modes letters (isType, isType)
      let b := letters.contains 'b'
      let e := letters.contains 'e'
      let f := letters.contains 'f'
      let a := letters.contains 'a'
      let k := letters.contains 'k'
      let p := letters.contains 'p'
      if !printinfo then
        if a || k then some .error
        else
          match r.operands with
          | [] => if E.config.posix then some .error else some .nothing
          | name :: rest =>
            let t : SearchType := if !b && !e && !f then ⟨true, true, false, false, p, false⟩ else ⟨e, b, f, true, p, false⟩
            (search E sh name t).map fun x => .run x.1 x.2 (name :: rest)
      else if E.config.posix && (r.operands.length < 1 || (!isType && 1 < r.operands.length)) then some .error
      else
        let dflt := !b && !e && !f && !a && !k
        let t : SearchType := if dflt then ⟨true, true, true, false, p, true⟩ else ⟨e, b, f, true, p, true⟩
        (printLoop E t (dflt || a) (dflt || k) human r.operands sh).map fun x => .printed x.1 x.2.1 x.2.2

end Yash.Command
