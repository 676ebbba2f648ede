import Verif.Alias.Builtin
import Verif.Script.Model
/-!
# Specification of the `alias` and `unalias` built-ins
-/
set_option autoImplicit false

namespace Yash.Alias.Spec

open Yash.Expand (Locale)

/-- The value of an alias and whether it is global. -/
def meaning (tbl : List Alias) (name : Str) : Option (Str × Bool) := (lookup tbl name).map fun a => (a.value, a.isGlobal)

/-- The names that aliases can have: not empty, and without blanks, newlines, equal signs and the characters that end or quote a word, or begin an expansion
or a comment. -/
def ValidName (L : Locale) (name : Str) : Prop :=
  name ≠ [] ∧ ∀ c ∈ name, L.blank c = false ∧ c ≠ ' ' ∧ c ≠ '\t' ∧ c ≠ '\n' ∧ c ≠ '=' ∧ c ≠ '$' ∧ c ≠ '<' ∧ c ≠ '>' ∧ c ≠ '\\' ∧ c ≠ '\'' ∧ c ≠ '"' ∧ c ≠ '`' ∧
    c ≠ ';' ∧ c ≠ '&' ∧ c ≠ '|' ∧ c ≠ '(' ∧ c ≠ ')' ∧ c ≠ '#'

/-- The operand defines the alias. -/
def Defines (L : Locale) (operand name value : Str) : Prop := ValidName L name ∧ operand = name ++ '=' :: value

/-- Options of `alias`: whether `-g` and `-p` are among them. -/
inductive Options : Bool → Bool → List Str → Prop
  | nil : Options false false []
  | global {g p : Bool} {opt : Str} {opts : List Str} : (opt = "-g".toList ∨ opt = "--global".toList) → Options g p opts → Options true p (opt :: opts)
  | pre {g p : Bool} {opt : Str} {opts : List Str} : (opt = "-p".toList ∨ opt = "--prefix".toList) → Options g p opts → Options g true (opt :: opts)

/-- The arguments are the options and then the operands, none of which begins with a hyphen unless they come after `--`. (A hyphen alone is an operand.) -/
inductive Usage (opts : List Str) : List Str → List Str → Prop
  | plain {operands : List Str} : (∀ o ∈ operands, o.head? = some '-' → o = ['-']) → Usage opts (opts ++ operands) operands
  | separated {operands : List Str} : Usage opts (opts ++ "--".toList :: operands) operands

/-- The tables after any number of invocations. -/
inductive Reachable (L : Locale) : List Alias → Prop
  | initial : Reachable L []
  | alias {tbl tbl' : List Alias} {C : Config} {args : List Str} {out : Str} {st : Status} :
      Reachable L tbl → C.locale = L → aliasBuiltin C args tbl = some (tbl', out, st) → Reachable L tbl'
  | unalias {tbl tbl' : List Alias} {C : Config} {args : List Str} {out : Str} {st : Status} :
      Reachable L tbl → C.locale = L → unaliasBuiltin C args tbl = some (tbl', out, st) → Reachable L tbl'

/-- A name that nothing but quoting could protect: these are the only characters that aliases' names can contain and that are special in a word. -/
def Plain (name : Str) : Prop := '{' ∉ name ∧ '*' ∉ name ∧ '?' ∉ name ∧ '[' ∉ name ∧ '~' ∉ name

/-- A shell in which the only commands are the two built-ins. If one fails, nothing is said about the rest. -/
def shell (C : Config) (env : List Alias → Expand.Env (List Alias)) : Script.Shell (List Alias) where
  locale := C.locale
  env := env
  active := fun _ => true
  exec := fun fields tbl =>
    match fields with
    | [] => none
    | name :: args =>
      let r := if name = "alias".toList then aliasBuiltin C args tbl else if name = "unalias".toList then unaliasBuiltin C args tbl else none
      match r with
      | some (tbl', _, .success) => some tbl'
      | _ => none

end Yash.Alias.Spec
