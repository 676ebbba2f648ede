import Verif.Expand.LineProps
/-!
# Specification of completion

What a word that has been typed up to the cursor stands for, and what is open at its end.
-/
set_option autoImplicit false

namespace Yash.Complete.Spec

open Expand (Locale)

/-- What is open where a word has been typed so far. -/
inductive Open where
  /-- Nothing. -/
  | nothing
  /-- The word ends with a backslash outside quotes. -/
  | backslash
  /-- A single quote. -/
  | single
  /-- A double quote. -/
  | double
  /-- A double quote, and the word ends with a backslash. -/
  | doubleBackslash
  deriving DecidableEq, Repr

/-- `Typed L o text value`: who has typed the text of a word character by character has typed the string `value` so far. -/
inductive Typed (L : Locale) : Open → List Char → List Char → Prop
  | start : Typed L .nothing [] []
  /-- A character without special meaning. -/
  | char (t v : List Char) (c : Char) : Typed L .nothing t v → c ∉ "\"'\\$`\n;&|<>(){*?[".toList → L.blank c = false →
      (t = [] → c ≠ '~' ∧ c ≠ '#') → Typed L .nothing (t ++ [c]) (v ++ [c])
  | backslash (t v : List Char) : Typed L .nothing t v → Typed L .backslash (t ++ ['\\']) v
  | escaped (t v : List Char) (c : Char) : Typed L .backslash t v → c ≠ '\n' → Typed L .nothing (t ++ [c]) (v ++ [c])
  | openSingle (t v : List Char) : Typed L .nothing t v → Typed L .single (t ++ ['\'']) v
  | inSingle (t v : List Char) (c : Char) : Typed L .single t v → c ≠ '\'' → Typed L .single (t ++ [c]) (v ++ [c])
  | closeSingle (t v : List Char) : Typed L .single t v → Typed L .nothing (t ++ ['\'']) v
  | openDouble (t v : List Char) : Typed L .nothing t v → Typed L .double (t ++ ['"']) v
  | inDouble (t v : List Char) (c : Char) : Typed L .double t v → c ∉ ['$', '`', '"', '\\'] →
      Typed L .double (t ++ [c]) (v ++ [c])
  | closeDouble (t v : List Char) : Typed L .double t v → Typed L .nothing (t ++ ['"']) v
  | doubleBackslash (t v : List Char) : Typed L .double t v → Typed L .doubleBackslash (t ++ ['\\']) v
  /-- A backslash quotes these characters in double quotes. -/
  | escapedDouble (t v : List Char) (c : Char) : Typed L .doubleBackslash t v → c ∈ ['$', '`', '"', '\\'] →
      Typed L .double (t ++ [c]) (v ++ [c])
  /-- It does not quote others. -/
  | keptDouble (t v : List Char) (c : Char) : Typed L .doubleBackslash t v → c ∉ ['$', '`', '"', '\\'] → c ≠ '\n' →
      Typed L .double (t ++ [c]) (v ++ ['\\', c])

/-- What is open when the backslash at the end is gone. -/
def Open.withoutBackslash : Open → Open
  | .backslash => .nothing
  | .doubleBackslash => .double
  | o => o

/-- The name of a command: no reserved word and no assignment. -/
def CommandWord (L : Locale) (t : List Char) : Prop :=
  t ∉ ["{", "!", "if", "do", "then", "else", "elif", "while", "until", "}", "fi", "done", "esac", "for", "case",
      "function"].map String.toList ∧
    ∀ n r, t = n ++ '=' :: r → ∃ c ∈ n, c ≠ '_' ∧ L.alnum c = false

/-- `Before L words text`: the text is what stands before a word of a simple command, and the words of this command before that
word are `words`. -/
inductive Before (L : Locale) : List (List Char) → List Char → Prop
  | start : Before L [] []
  | blank (ws : List (List Char)) (f : List Char) (c : Char) : Before L ws f → L.blank c = true → Before L ws (f ++ [c])
  /-- The end of a command, or an empty command. -/
  | separator (ws : List (List Char)) (f : List Char) (c : Char) : Before L ws f → c ∈ ['\n', ';', '&', '|'] → Before L [] (f ++ [c])
  | word (ws : List (List Char)) (f t v : List Char) (c : Char) : Before L ws f → Typed L .nothing t v → t ≠ [] →
      (ws = [] → CommandWord L t) → L.blank c = true → Before L (ws ++ [v]) (f ++ t ++ [c])
  /-- The last word of a command. -/
  | lastWord (ws : List (List Char)) (f t v : List Char) (c : Char) : Before L ws f → Typed L .nothing t v → t ≠ [] →
      (ws = [] → CommandWord L t) → c ∈ ['\n', ';', '&', '|'] → Before L [] (f ++ t ++ [c])

/-- Facts about blanks that hold in every locale. -/
structure Blanks (L : Locale) : Prop where
  newline : L.blank '\n' = false
  ascii : ∀ c, ('0' ≤ c ∧ c ≤ '9') ∨ ('a' ≤ c ∧ c ≤ 'z') → L.blank c = false

/-- The longest common prefix of some strings. -/
def LongestPrefix (p : List Char) (l : List (List Char)) : Prop :=
  (∀ s ∈ l, p <+: s) ∧ ∀ q : List Char, (∀ s ∈ l, q <+: s) → q <+: p

end Yash.Complete.Spec
