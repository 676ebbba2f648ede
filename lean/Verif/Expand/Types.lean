/-!
# Types shared by the models of `expand.c`

A word under expansion is, in C, a wide string and a parallel `charcategory_T` string of the same
length.  Here it is one list of (character, category) pairs.
-/
set_option autoImplicit false

namespace Yash.Expand

/-- expand.h:53-58: origin part of `charcategory_T`. -/
inductive Origin where
  | literal
  | hard
  | soft
deriving DecidableEq, Repr

/-- expand.h:47-64 `charcategory_T`. -/
structure CC where
  origin : Origin
  quoted : Bool := false
  quotation : Bool := false
deriving DecidableEq, Repr

/-- `CC_LITERAL` without modifiers. -/
abbrev CC.lit : CC := { origin := .literal }

/-- A character with its category. -/
abbrev CChar := Char × CC

/-- A word under expansion. -/
abbrev CWord := List CChar

/-- The text of a word. -/
abbrev text (w : CWord) : List Char := w.map (·.1)

/-- Locale dependent character classes (`iswalnum`, `iswblank`, `iswspace`). -/
structure Locale where
  alnum : Char → Bool
  blank : Char → Bool
  space : Char → Bool

/-- The facts about character classes that the C standard and POSIX guarantee in every locale and
that the proofs use: alphanumeric characters are neither blank nor one of the ASCII punctuation
characters and newline that the shell treats specially. -/
structure Locale.Ok (L : Locale) : Prop where
  alnum_blank : ∀ c, L.alnum c = true → L.blank c = false
  alnum_special : ∀ c ∈ "'\"\\$`;&|<>()~#*?[]{},:=!^\n+@%".toList, L.alnum c = false
  punct_blank : ∀ c ∈ "'\"\\$`;&|<>()~#*?[]{},:=!^+@%.-_/".toList, L.blank c = false
  punct_space : ∀ c ∈ "'\"\\$`;&|<>()~#*?[]{},:=!^+@%.-_/0123456789".toList, L.space c = false

end Yash.Expand
