import Verif.Parser.Spec
import Verif.Parser.Model
import Verif.Function.Model
/-!
# What is expected of functions
-/
set_option autoImplicit false

namespace Yash.Function.Spec

open Yash.Syntax Yash.Parser
open Yash.Parser.Spec
open Yash.Variable (Name)
open Yash.Expand (Locale)

/-- What can happen to the functions: the execution of a function definition, and of a simple command given by its fields. -/
inductive Op where
  | define (name : Name) (body : Command)
  | command (fields : List (List Char))

/-- What happens, and whether it is successful. A command that is not one of the built-ins for functions does not change them. -/
def step (C : Config) (fs : Functions) : Op → Functions × Bool
  | .define n c =>
    match defineFunction n c fs with
    | some fs' => (fs', true)
    | none => (fs, false)
  | .command fields =>
    match runBuiltin C fields fs with
    | some (fs', _, ok) => (fs', ok)
    | none => (fs, true)

/-- The functions after all that has happened. -/
def after (C : Config) (fs : Functions) : List Op → Functions
  | [] => fs
  | o :: os => after C (step C fs o).1 os

/-- There is a function with that name, and it is read-only. -/
def ReadOnly (fs : Functions) (n : Name) : Prop := ∃ f, Variable.get fs n = some f ∧ f.readonly = true

/-- A function that can be printed: its body is a compound command that was read by the parser and has none of the features that are not
printed faithfully (see C55); it is not the definition of another function with a plain name; and its name is not a keyword like `if` that needs no quotes and, if the
function is read-only, does not look like an option. -/
structure Printable (L : Locale) (n : Name) (f : Func) : Prop where
  source : ∃ s l rest, s.getLast? ≠ some '\\' ∧ parseLine L s = some (l, rest) ∧ CommandIn f.body l
  ok : CommandOk L f.body
  compound : ∀ rs as ws, f.body ≠ .simple rs as ws
  plain : ¬NamedFunction L f.body
  keyword : Yash.Restore.isName L n = true → n ∉ keywords
  option : f.readonly = true → n.head? ≠ some '-'

end Yash.Function.Spec
