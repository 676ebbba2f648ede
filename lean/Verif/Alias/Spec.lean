import Verif.Alias.Model
/-!
# What alias substitution is meant to do (C24, C39)

While a command is read, every character of the buffer is followed back to where it came from:
the list of the aliases whose values it is part of, innermost first, each with the number of
characters that followed it in that value.  A character that was typed has no origin.
-/
set_option autoImplicit false

namespace Yash.Alias.Spec

/-- "This character is part of the value of `alias`, and `toEnd` characters of the value follow
it." -/
structure Origin where
  alias : Alias
  toEnd : Nat
deriving DecidableEq, Repr

/-- The origins of the characters of a value that replaces a word whose last character has the
origins `outer`.  (A word normally lies inside or outside a value as a whole.  A line continuation
at the very end of a value can join the end of the value to the text that follows it; such a word
counts as following the value.) -/
def valueOrigins (a : Alias) (outer : List Origin) : List (List Origin) :=
  (List.range a.value.length).map fun n => ⟨a, a.value.length - 1 - n⟩ :: outer

/-- The origins of the last character of the word that ends at `j`. -/
def lastOrigins (org : List (List Origin)) (j : Nat) : List Origin := org[j - 1]?.getD []

/-- The position `e` after the text between `i` and `j` has been replaced by `n` characters. -/
def moved (i j n e : Nat) : Nat := if i < e then e + n - (j - i) else e

/-- A history of reading a command, as the parser performs it going forward.  `src` is the buffer,
`org` the origins of its characters, `l` the alias list, `cur` the position of the last word that
was examined for substitution, `input` the number of characters that were typed so far, `used` the
aliases that have been substituted so far, each with the position where its value ends now.
`conts` tells whether line continuations may occur. -/
inductive Reading (E : Env) (conts : Bool) :
    List Char → List (List Origin) → List Item → Nat → Nat → List (Alias × Nat) → Prop
  /-- nothing has been read yet -/
  | start : Reading E conts [] [] [] 0 0 []
  /-- `read_more_input` appends typed text -/
  | more {src org l cur input used} (t : List Char) :
      Reading E conts src org l cur input used →
      Reading E conts (src ++ t) (org ++ List.replicate t.length []) l cur (input + t.length) used
  /-- a line continuation at or after the current position is removed -/
  | continuation {src org l cur input used} (k : Nat) {src' l'} :
      Reading E conts src org l cur input used → conts = true → cur ≤ k →
      lineContinuation src l k = some (src', l') →
      Reading E conts src' (org.take k ++ org.drop (k + 2)) l' cur input
        (used.map fun u => (u.1, moved (k + 1) (k + 3) 0 u.2))
  /-- the word from `i` to `j` is examined and left alone -/
  | keep {src org l cur input used} (i j : Nat) (f : Flags) {src' l'} :
      Reading E conts src org l cur input used → cur ≤ i → i ≤ src.length →
      substituteRange E src i j l f = some (none, src', l') →
      Reading E conts src' org l' i input used
  /-- the word from `i` to `j` is replaced by the value of the alias `a` -/
  | replace {src org l cur input used} (i j : Nat) (f : Flags) {a src' l'} :
      Reading E conts src org l cur input used → cur ≤ i → i ≤ src.length →
      substituteRange E src i j l f = some (some a, src', l') →
      Reading E conts src' (org.take i ++ valueOrigins a (lastOrigins org j) ++ org.drop j) l' i
        input ((a, i + a.value.length) :: used.map fun u => (u.1, moved i j a.value.length u.2))

/-- The character at `p` comes from the value of `a`. -/
def ComesFrom (org : List (List Origin)) (p : Nat) (a : Alias) : Prop :=
  ∃ os, org[p]? = some os ∧ ∃ o ∈ os, o.alias = a

/-- The word at `i` follows the value of a non-global alias that ends with a blank: there is
nothing but blanks between the last character of the value, inclusive, and the word. -/
def FollowsBlank (E : Env) (src : List Char) (org : List (List Origin)) (i : Nat) : Prop :=
  ∃ (p : Nat) (a : Alias) (os : List Origin), p < i ∧ org[p]? = some os ∧ ⟨a, 0⟩ ∈ os ∧
    a.isGlobal = false ∧ (∃ c, a.value.getLast? = some c ∧ E.blank c = true) ∧
    ∀ q c, p < q → q < i → src[q]? = some c → E.blank c = true

end Yash.Alias.Spec
