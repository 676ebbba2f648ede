import Verif.Variable.Spec
import Verif.Restore.Model
/-!
# Specification: what executing a listing of variables is expected to do
-/
set_option autoImplicit false

namespace Yash.Restore.Spec

open Yash.Variable
open Yash.Variable.Spec
open Yash.Expand (Locale)

/-- The name can be written before the `=` of an assignment: letters, digits and underscores, the
first not being a digit. -/
def IsName (L : Locale) (n : Name) : Prop :=
  ∃ c s, n = c :: s ∧ ¬('0' ≤ c ∧ c ≤ '9') ∧ ∀ d ∈ n, d = '_' ∨ L.alnum d = true

/-- The variable is in the innermost scope. -/
def Innermost (sh : Shell) (n : Name) (v : Var) : Prop := varAt sh (sh.scopes.length - 1) n = some v

/-- There is a way to write a command that sets the variable: an array needs a proper name, and the
name of a string must not look like an option of the built-in. -/
def Writable (L : Locale) (n : Name) (v : Var) : Prop :=
  match v.value with
  | .scalar _ => '=' ∉ n ∧ n.head? ≠ some '-'
  | .array _ => IsName L n

/-- No function is being executed. -/
def TopLevel (sh : Shell) : Prop := ∀ d, PlainAt sh d → d = 0

/-- The global variable of the same name, if there is one, can be replaced: it is not read-only, and
it has no value if the one to be restored has none. -/
def Replaceable (sh : Shell) (n : Name) (v : Var) : Prop :=
  ∀ u, varAt sh 0 n = some u → u.readonly = false ∧ (v.value = .scalar none → u.value = .scalar none)

/-- In `after`, `$n` has the value, is read-only or not as given, and is exported if so given or if it
was in `before`. -/
def Restored (before after : Shell) (n : Name) (value : Value) (ro ex : Prop) : Prop :=
  ∃ v, Visible after n 0 v ∧ v.value = value ∧ (v.readonly = true ↔ ro) ∧
    (v.exported = true ↔ ex ∨ ∃ u, varAt before 0 n = some u ∧ u.exported = true)

/-- The text is a script that restores the variables chosen by `chosen` in every shell that is not
executing a function, does not export all variables, and where they can be replaced; and that does
nothing else.  `ro` and `ex` tell which of the variables become read-only and exported. -/
def Restores (C : Config) (text : List Char) (chosen : Name → Var → Prop) (ro ex : Var → Prop) : Prop :=
  ∀ sh, Sane sh → TopLevel sh → sh.allexport = false →
    (∀ n v, chosen n v → Writable C.locale n v ∧ Replaceable sh n v) →
    ∃ sh', runScript C text sh = some (sh', []) ∧
      (∀ n v, chosen n v → Restored sh sh' n v.value (ro v) (ex v)) ∧
      (∀ n d, (∀ v, ¬chosen n v) → varAt sh' d n = varAt sh d n)

end Yash.Restore.Spec
