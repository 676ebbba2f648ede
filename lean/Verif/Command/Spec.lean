import Verif.Command.Model
import Verif.Path.WhichSpec
import Verif.Parser.Spec
/-!
# Specification of the `command` and `type` built-ins

A name may stand for several things. They are listed in the order in which the shell prefers them, and the first one that is asked for is the answer.
-/
set_option autoImplicit false

namespace Yash.Command.Spec

open Yash.Variable (Word Shell)
open Yash.Path (BuiltinType CommandInfo getCommandPath getvar)
open Yash.Path.Spec (FirstMatch)

/-- What the options `-k`, `-a`, `-b`, `-f` and `-e` ask for. -/
inductive Kind where
  | keyword | alias | builtin | function | external
deriving DecidableEq, Repr

/-- What a name stands for. A substitutive built-in stands for the external command with the path. -/
inductive Thing where
  | keyword
  | alias (a : Alias.Alias)
  | builtin (t : BuiltinType)
  | substitutive (path : Word)
  | function
  | external (path : Word)
deriving DecidableEq

/-- One thing if the condition holds. -/
def only (c : Prop) [Decidable c] (k : Kind) (t : Thing) : List (Kind × Thing) := if c then [(k, t)] else []

/-- All that the name stands for, in order; `found` is the external command. Names with a slash are never built-ins; functions with such names count only if functions
are asked for (`slashFunctions`). -/
def things (E : Env) (name : Word) (slashFunctions : Bool) (found : Option Word) : List (Kind × Thing) :=
  only (name ∈ Parser.Spec.keywords) .keyword .keyword ++
  ((E.aliases.find? fun a => a.name == name).toList.flatMap fun a => only (a.isGlobal = false) .alias (.alias a)) ++
  only ('/' ∉ name ∧ E.builtins name = some .special) .builtin (.builtin .special) ++
  only (('/' ∉ name ∨ slashFunctions = true) ∧ E.functions name = true) .function .function ++
  only ('/' ∉ name ∧ E.builtins name = some .mandatory) .builtin (.builtin .mandatory) ++
  only ('/' ∉ name ∧ E.builtins name = some .elective) .builtin (.builtin .elective) ++
  only ('/' ∉ name ∧ E.builtins name = some .extension ∧ E.config.posix = false) .builtin (.builtin .extension) ++
  (found.toList.flatMap fun p => only ('/' ∉ name ∧ E.builtins name = some .substitutive) .builtin (.substitutive p)) ++
  (found.toList.flatMap fun p => [(.external, .external p)])

/-- The first of them that is asked for. -/
def first (E : Env) (name : Word) (slashFunctions : Bool) (found : Option Word) (asked : Kind → Bool) : Option Thing :=
  ((things E name slashFunctions found).find? fun x => asked x.1).map (·.2)

/-- The external command: for a name with a slash, the file with the name; else the first match in the directories of the system's default path (`std`), or what the search of
C33 in the directories of `PATH` finds. -/
def Lookup (E : Env) (std : Bool) (sh : Shell) (name : Word) (sh' : Shell) (found : Option Word) : Prop :=
  if '/' ∈ name then sh' = sh ∧ found = if E.exec name then some name else none
  else if std = true then
    sh' = sh ∧ (name = [] → found = none) ∧ (name ≠ [] → ∀ p, found = some p ↔ FirstMatch E.exec (E.stdpath.getD []) name p)
  else getCommandPath E.exec sh name false = some (sh', found)

/-- `p` is the absolute pathname for the path: itself if it is absolute, else in the directory `PWD`, if that names the current directory, else in the current
directory. -/
def Absolute (E : Env) (sh : Shell) (path p : Word) : Prop :=
  ((∃ r, path = '/' :: r) ∧ p = path) ∨
  ((∀ r, path ≠ '/' :: r) ∧ ∃ dir, Path.Spec.In dir path p ∧ dir ≠ [] ∧
    ((getvar sh "PWD".toList = some dir ∧ E.sameAsDot dir = true) ∨
      ((∀ d, getvar sh "PWD".toList = some d → d ≠ [] → E.sameAsDot d = false) ∧ (E.cwd = some dir ∨ (E.cwd = none ∧ dir = ['.'])))))

/-- The line that is printed for a thing, with `-V` (or `type`) and with `-v`. -/
inductive Line (E : Env) (sh : Shell) (name : Word) : Bool → Thing → Str → Prop
  | keyword : Line E sh name false .keyword (name ++ "\n".toList)
  | keywordV : Line E sh name true .keyword (name ++ ": a shell keyword\n".toList)
  | alias {a : Alias.Alias} : Line E sh name false (.alias a) (Alias.printAlias E.config.locale name a true)
  | aliasV {a : Alias.Alias} : Line E sh name true (.alias a) (name ++ ": an alias for `".toList ++ a.value ++ "'\n".toList)
  | builtin {t : BuiltinType} : Line E sh name false (.builtin t) (name ++ "\n".toList)
  | special : Line E sh name true (.builtin .special) (name ++ ": a special built-in\n".toList)
  | mandatory : Line E sh name true (.builtin .mandatory) (name ++ ": a mandatory built-in\n".toList)
  | elective : Line E sh name true (.builtin .elective) (name ++ ": an elective built-in\n".toList)
  | extension : Line E sh name true (.builtin .extension) (name ++ ": an extension built-in\n".toList)
  | substitutive {p : Word} : Line E sh name false (.substitutive p) (p ++ "\n".toList)
  | substitutiveV {p : Word} : Line E sh name true (.substitutive p) (name ++ ": a substitutive built-in for ".toList ++ p ++ "\n".toList)
  | function : Line E sh name false .function (name ++ "\n".toList)
  | functionV : Line E sh name true .function (name ++ ": a function\n".toList)
  | external {path p : Word} : Absolute E sh path p → Line E sh name false (.external path) (p ++ "\n".toList)
  | externalV {path p : Word} : Absolute E sh path p → Line E sh name true (.external path) (name ++ ": an external command at ".toList ++ p ++ "\n".toList)

/-- What is printed for one name, and whether it stands for anything that is asked for. Only remembered locations of commands change. -/
def Identifies (E : Env) (std slashFunctions human : Bool) (asked : Kind → Bool) (sh : Shell) (name : Word) (sh' : Shell) (out : Str) (ok : Bool) : Prop :=
  ∃ sh1 found, Lookup E std sh name sh1 found ∧ (sh' = sh ∨ sh' = sh1) ∧
    match first E name slashFunctions found asked with
    | some thing => ok = true ∧ Line E sh name human thing out
    | none => ok = false ∧ out = []

/-- The same for one name after the other. -/
inductive IdentifiesAll (E : Env) (std slashFunctions human : Bool) (asked : Kind → Bool) : Shell → List Word → Shell → Str → Bool → Prop
  | nil {sh : Shell} : IdentifiesAll E std slashFunctions human asked sh [] sh [] true
  | cons {sh sh1 sh2 : Shell} {name : Word} {names : List Word} {out outs : Str} {ok oks : Bool} :
      Identifies E std slashFunctions human asked sh name sh1 out ok → IdentifiesAll E std slashFunctions human asked sh1 names sh2 outs oks →
      IdentifiesAll E std slashFunctions human asked sh (name :: names) sh2 (out ++ outs) (ok && oks)

/-- The options that were given, as letters. -/
def Given (E : Env) (args : List Word) (letters : List Char) (operands : List Word) : Prop :=
  ∃ reports used, Xgetopt.Spec.parse E.getopt none args = ⟨reports, used, operands, .done⟩ ∧ letters = reports.map fun o => o.1.short

/-- The letters of the kinds. -/
def letter : Kind → Char
  | .keyword => 'k' | .alias => 'a' | .builtin => 'b' | .function => 'f' | .external => 'e'

/-- The last of `-v` and `-V` decides whether the message is for humans; `type` is like `type -V`. -/
def Verbose (isType : Bool) (letters : List Char) (human : Bool) : Prop :=
  ('v' ∉ letters ∧ 'V' ∉ letters ∧ isType = true ∧ human = true) ∨
  (∃ before after, letters = before ++ 'v' :: after ∧ 'v' ∉ after ∧ 'V' ∉ after ∧ human = false) ∨
  (∃ before after, letters = before ++ 'V' :: after ∧ 'v' ∉ after ∧ 'V' ∉ after ∧ human = true)

/-- What is executed for a thing. -/
def runs : Option Thing → CommandInfo
  | some (.builtin t) => .builtin t
  | some (.substitutive _) => .builtin .substitutive
  | some .function => .function
  | some (.external p) => .external p
  | some .keyword => .none
  | some (.alias _) => .none
  | none => .none

end Yash.Command.Spec
