import Verif.Hash.Model
import Verif.Path.WhichSpec
/-!
# Specification of `hash`
-/
set_option autoImplicit false

namespace Yash.Hash.Spec

open Variable (Word Map Shell get getPathArray)

/-- The arguments consist of options with these letters and of operands. -/
def Given (E : Env) (args : List Word) (letters : List Char) (operands : List Word) : Prop :=
  ∃ reports used, Xgetopt.Spec.parse E.getopt none args = ⟨reports, used, operands, .done⟩ ∧ letters = reports.map fun o => o.1.short

/-- `hash` remembers `p` for the command `name`: an executable file in the first of the directories of `PATH` that has one. -/
def Found (E : Env) (sh : Shell) (name p : Word) : Prop :=
  name ≠ [] ∧ '/' ∉ name ∧ Path.Spec.FirstMatch E.exec (Path.Spec.searched sh) name p

/-- `History h s`: the events `h`, the last one first, lead from an empty cache of home directories to `s`. -/
inductive History : List Event → State → Prop where
  | start (s : State) : s.homes = [] → History [] s
  | event (h : List Event) (s s' : State) (e : Event) (r : Option Word) : History h s → runEvent s e = some (s', r) → History (e :: h) s'

/-- `hash -d user` when the home directory is `d`. -/
def Refreshes (user d : Word) : Event → Prop
  | .tilde _ _ => False
  | .hash E args => ∃ letters operands, Given E args letters operands ∧ 'd' ∈ letters ∧ 'r' ∉ letters ∧ 'a' ∉ letters ∧ '-' ∉ letters ∧ user ∈ operands ∧ E.passwd user = some d

/-- `hash -dr`, or `hash -dr user`. -/
def Forgets (user : Word) : Event → Prop
  | .tilde _ _ => False
  | .hash E args =>
    ∃ letters operands, Given E args letters operands ∧ 'd' ∈ letters ∧ 'r' ∈ letters ∧ '-' ∉ letters ∧ ((operands = []) ∨ ('a' ∉ letters ∧ user ∈ operands))

/-- `~user` when the home directory is `d`. -/
def Expands (user d : Word) : Event → Prop
  | .tilde E u => u = user ∧ E.passwd user = some d
  | .hash _ _ => False

/-- The home directory of the user has been looked up in the history `h`, with the result `d`, and has neither been forgotten nor looked up with `hash` since. -/
def Remembered (h : List Event) (user d : Word) : Prop :=
  ∃ later e earlier, h = later ++ e :: earlier ∧ (Refreshes user d e ∨ Expands user d e) ∧ ∀ x ∈ later, ¬Forgets user x ∧ ∀ d', ¬Refreshes user d' x

end Yash.Hash.Spec
