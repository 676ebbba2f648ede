import Verif.Expand.Types
/-!
# Specification of field splitting (POSIX XCU 2.6.5)

Only characters that result from an expansion and are not quoted can separate (`splittable`).

* An IFS character that is not white space separates by itself: cut the word there.
* Within each piece, runs of IFS white space separate, and leading and trailing ones are ignored:
  the fields are the maximal runs of other characters.  A piece without any field is one empty
  field.
* If the last field is empty, it is dropped when it is the only one or the `emptylastfield` option
  is off (i.e. the last separator is a terminator).
-/
set_option autoImplicit false

namespace Yash.Expand.Spec

/-- Cuts a list at the elements satisfying `p`, which are dropped. -/
def cut {α : Type} (p : α → Bool) : List α → List (List α)
  | [] => [[]]
  | a :: l =>
    if p a then [] :: cut p l
    else match cut p l with
      | [] => [[a]]
      | x :: xs => (a :: x) :: xs

/-- A character that may separate fields. -/
def splittable (ifs : List Char) (c : CChar) : Prop :=
  c.2.origin = .soft ∧ c.2.quoted = false ∧ c.2.quotation = false ∧ c.1 ∈ ifs

instance (ifs : List Char) (c : CChar) : Decidable (splittable ifs c) := by
  unfold splittable; infer_instance

/-- Separating white space. -/
def isWhite (space : Char → Bool) (ifs : List Char) (c : CChar) : Bool :=
  decide (splittable ifs c) && space c.1

/-- Separators that are not white space. -/
def isSep (space : Char → Bool) (ifs : List Char) (c : CChar) : Bool :=
  decide (splittable ifs c) && !space c.1

/-- Fields of a piece without non-white separators. -/
def pieceFields (white : CChar → Bool) (piece : CWord) : List CWord :=
  (cut white piece).filter (· ≠ [])

/-- All fields, before the treatment of an empty last field. -/
def allFields (space : Char → Bool) (ifs : List Char) (w : CWord) : List CWord :=
  (cut (isSep space ifs) w).flatMap fun piece =>
    match pieceFields (isWhite space ifs) piece with
    | [] => [[]]
    | fs => fs

/-- The fields of a word. -/
def fields (space : Char → Bool) (emptylast : Bool) (ifs : List Char) (w : CWord) : List CWord :=
  let fs := allFields space ifs w
  if fs.getLast? = some [] ∧ (emptylast = false ∨ fs.length = 1) then fs.dropLast else fs

/-- `Pieces sep w fs`: the fields `fs` are disjoint contiguous pieces of `w`, in order; every
character outside of them satisfies `sep`, no character in them does. -/
inductive Pieces (sep : CChar → Prop) : CWord → List CWord → Prop
  | done (s : CWord) : (∀ c ∈ s, sep c) → Pieces sep s []
  | field (s f rest : CWord) (fs : List CWord) : (∀ c ∈ s, sep c) → (∀ c ∈ f, ¬ sep c) →
      Pieces sep rest fs → Pieces sep (s ++ f ++ rest) (f :: fs)

end Yash.Expand.Spec
