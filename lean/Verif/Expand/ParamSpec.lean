import Verif.Expand.WordSpec
/-!
# Specification of parameter expansion: positions and missing values
-/
set_option autoImplicit false

namespace Yash.Expand.Spec

/-- The first of the positions `i` to …, of `n` positions that are numbered from one; negative numbers count
from the end.  There is none if `i` is zero. -/
def firstPosition (n : Nat) (i : Int) : Option Int :=
  if i > 0 then some i else if i < 0 then some (n + 1 + i) else none

/-- The last of the positions … to `j`. -/
def lastPosition (n : Nat) (j : Int) : Int := if j ≥ 0 then j else n + 1 + j

/-- Whether `p` is one of the positions `i` to `j`. -/
def InRange (n : Nat) (i j : Int) (p : Nat) : Prop :=
  ∃ a, firstPosition n i = some a ∧ a ≤ p ∧ (p : Int) ≤ lastPosition n j

/-- Whether `p` is the position `i`. -/
def IsPosition (n : Nat) (i : Int) (p : Nat) : Prop := firstPosition n i = some (p : Int)

instance (n : Nat) (i : Int) (p : Nat) : Decidable (IsPosition n i p) := by unfold IsPosition; infer_instance

instance (n : Nat) (i j : Int) (p : Nat) : Decidable (InRange n i j p) := by
  unfold InRange
  cases firstPosition n i with
  | none => exact isFalse (by simp)
  | some a =>
    by_cases h : a ≤ p ∧ (p : Int) ≤ lastPosition n j
    · exact isTrue ⟨a, rfl, h⟩
    · exact isFalse (by rintro ⟨b, hb, h'⟩; cases hb; exact h h')

/-- The elements at chosen positions, in order. -/
def choose {α : Type} (sel : Nat → Prop) [DecidablePred sel] (l : List α) : List α :=
  ((l.zipIdx 1).filter fun x => decide (sel x.2)).map Prod.fst

/-- What an index selects: characters of a string or elements of an array. -/
def chooseValue (sel : Nat → Nat → Prop) [∀ n, DecidablePred (sel n)] : VarValue → VarValue
  | .notFound => .notFound
  | .scalar v => .scalar (choose (sel v.length) v)
  | .array vs => .array (choose (sel vs.length) vs)
  | .concat vs => .concat (choose (sel vs.length) vs)

/-- A variable that is set but has no text. -/
def IsNull (v : VarValue) : Prop :=
  v = .scalar [] ∨ v = .array [] ∨ v = .array [[]] ∨ v = .concat [] ∨ v = .concat [[]]

/-- Whether `${x-w}` or (with a colon) `${x:-w}` regards the variable as missing. -/
def Missing (colon : Bool) (v : VarValue) : Prop := v = .notFound ∨ (colon = true ∧ IsNull v)

instance (v : VarValue) : Decidable (IsNull v) := by unfold IsNull; infer_instance
instance (colon : Bool) (v : VarValue) : Decidable (Missing colon v) := by unfold Missing; infer_instance

end Yash.Expand.Spec
