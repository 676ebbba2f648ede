import Verif.Edit.Words
/-!
# What the word motions find

A kind of word is a way to sort characters: `none` separates words, and a word is a longest part of the line whose characters
are all of the same sort.
-/
set_option autoImplicit false

namespace Yash.Edit.Spec

/-- How the characters are sorted: bigwords are separated by blanks, semiwords by blanks and punctuation, and viwords by blanks
and changes between letters, digits and underscores on one side and all other characters on the other. -/
def sortOf (C : Chars) : WordKind → Char → Option Bool
  | .bigword, c => if C.blank c = true then none else some true
  | .semiword, c => if C.blank c = true ∨ C.punct c = true then none else some true
  | .viword, c => if C.blank c = true then none else some (decide (c = '_' ∨ C.alnum c = true))

/-- Emacswords consist of letters and digits. -/
def sortEmacs (C : Chars) (c : Char) : Option Bool := if C.alnum c = true then some true else none

/-- No blank is a letter, a digit or an underscore, as the C standard requires of `iswblank` and `iswalnum`. -/
def Sane (C : Chars) : Prop := ∀ c, C.blank c = true → C.alnum c = false ∧ c ≠ '_'

/-- A word starts at `j`. -/
def IsStart (sort : Char → Option Bool) (s : List Char) (j : Nat) : Prop :=
  ∃ c a, s[j]? = some c ∧ sort c = some a ∧ ∀ i d, j = i + 1 → s[i]? = some d → sort d ≠ some a

/-- The last character of a word is at `j`. -/
def IsEnd (sort : Char → Option Bool) (s : List Char) (j : Nat) : Prop :=
  ∃ c a, s[j]? = some c ∧ sort c = some a ∧ ∀ d, s[j + 1]? = some d → sort d ≠ some a

/-- `r` is the first position after `i` with the property. -/
def FirstAfter (P : Nat → Prop) (i r : Nat) : Prop := i < r ∧ P r ∧ ∀ j, i < j → j < r → ¬P j

/-- `r` is the last position before `i` with the property. -/
def LastBefore (P : Nat → Prop) (i r : Nat) : Prop := r < i ∧ P r ∧ ∀ j, r < j → j < i → ¬P j

/-- To the start of the next word, or to the end of the line. -/
def NextStart (sort : Char → Option Bool) (s : List Char) (i r : Nat) : Prop :=
  FirstAfter (IsStart sort s) i r ∨ r = s.length ∧ ∀ j, i < j → ¬IsStart sort s j

/-- To the start of the word, or of the word before, or to the beginning of the line. -/
def PrevStart (sort : Char → Option Bool) (s : List Char) (i r : Nat) : Prop :=
  LastBefore (IsStart sort s) i r ∨ r = 0 ∧ ∀ j, 0 < j → j < i → ¬IsStart sort s j

/-- To the last character of the word, or of the next one if the cursor is there already; where no word ends any more, to the last
character of the line or behind it. -/
def NextEnd (sort : Char → Option Bool) (s : List Char) (i r : Nat) : Prop :=
  FirstAfter (IsEnd sort s) i r ∨ (∀ j, i < j → ¬IsEnd sort s j) ∧ (r = s.length ∨ r + 1 = s.length)

/-- Behind the last character of the word or the next one, or to the end of the line. -/
def AfterEnd (sort : Char → Option Bool) (s : List Char) (i r : Nat) : Prop :=
  (∃ e, r = e + 1 ∧ i ≤ e ∧ IsEnd sort s e ∧ ∀ j, i ≤ j → j < e → ¬IsEnd sort s j) ∨ r = s.length ∧ ∀ j, i ≤ j → ¬IsEnd sort s j

/-- Several times. -/
def Steps (R : Nat → Nat → Prop) : Nat → Nat → Nat → Prop
  | 0, i, r => r = i
  | n + 1, i, r => ∃ k, R i k ∧ Steps R n k r

end Yash.Edit.Spec
