import Verif.Fnmatch.Regex
/-!
# What pattern matching means (POSIX XCU 2.13)

How a pattern is read, which strings it matches, and which part of a string the expansions
select.  Nothing here refers to the model of the shell; `Locale` and `Item` describe the locale.
-/
set_option autoImplicit false

namespace Yash.Fnmatch.Spec

/-- An item of a bracket expression in a pattern: an unquoted character, a quoted character, or a
collating symbol, character class or equivalence class. -/
inductive Tok where
  | plain (c : Char)
  | quoted (c : Char)
  | sym (kind : Char) (t : List Char)
  deriving DecidableEq

inductive Atom where
  | lit (c : Char)
  | any
  | star
  | set (neg : Bool) (items : List Tok)
  deriving DecidableEq

/-- The text without quoting backslashes. -/
def unquoted : List Char → List Char
  | [] => []
  | ['\\'] => []
  | '\\' :: c :: r => c :: unquoted r
  | c :: r => c :: unquoted r

def isKind (c : Char) : Prop := c = '.' ∨ c = ':' ∨ c = '='

/-- The text of the items of a bracket expression up to and including the closing bracket. -/
inductive Items : List Char → List Tok → Prop
  | close : Items [']'] []
  | plain (c : Char) (s : List Char) (ts : List Tok) :
      c ≠ ']' → c ≠ '[' → c ≠ '\\' → Items s ts → Items (c :: s) (.plain c :: ts)
  | bracket (s : List Char) (ts : List Tok) :
      (∀ k r, s = k :: r → ¬ isKind k) → Items s ts → Items ('[' :: s) (.plain '[' :: ts)
  | quoted (c : Char) (s : List Char) (ts : List Tok) :
      Items s ts → Items ('\\' :: c :: s) (.quoted c :: ts)
  | sym (k : Char) (t s : List Char) (ts : List Tok) :
      isKind k → (∀ a b, t ++ [k] ≠ a ++ k :: ']' :: b) → Items s ts →
      Items ('[' :: k :: t ++ k :: ']' :: s) (.sym k (unquoted t) :: ts)

/-- The text of a bracket expression after the opening bracket: an optional `!` or `^`, and items,
of which the first one may be a closing bracket. -/
inductive Bracket : List Char → Bool → List Tok → Prop
  | first (s : List Char) (ts : List Tok) :
      Items s ts → Bracket (']' :: s) false (.plain ']' :: ts)
  | items (c : Char) (s : List Char) (ts : List Tok) :
      c ≠ ']' → c ≠ '!' → c ≠ '^' → Items (c :: s) ts → Bracket (c :: s) false ts
  | negFirst (n : Char) (s : List Char) (ts : List Tok) :
      n = '!' ∨ n = '^' → Items s ts → Bracket (n :: ']' :: s) true (.plain ']' :: ts)
  | neg (n c : Char) (s : List Char) (ts : List Tok) :
      n = '!' ∨ n = '^' → c ≠ ']' → Items (c :: s) ts → Bracket (n :: c :: s) true ts

/-- How a pattern is read. -/
inductive Reads : List Char → List Atom → Prop
  | nil : Reads [] []
  | any (s : List Char) (as : List Atom) : Reads s as → Reads ('?' :: s) (.any :: as)
  | star (s : List Char) (as : List Atom) : Reads s as → Reads ('*' :: s) (.star :: as)
  | backslash : Reads ['\\'] []
  | quoted (c : Char) (s : List Char) (as : List Atom) :
      Reads s as → Reads ('\\' :: c :: s) (.lit c :: as)
  | set (body s : List Char) (neg : Bool) (ts : List Tok) (as : List Atom) :
      Bracket body neg ts → Reads s as → Reads ('[' :: body ++ s) (.set neg ts :: as)
  | noSet (s : List Char) (as : List Atom) :
      (∀ body rest neg ts, s = body ++ rest → ¬ Bracket body neg ts) →
      Reads s as → Reads ('[' :: s) (.lit '[' :: as)
  | plain (c : Char) (s : List Char) (as : List Atom) :
      c ≠ '?' → c ≠ '*' → c ≠ '\\' → c ≠ '[' → Reads s as → Reads (c :: s) (.lit c :: as)

/-- What an item of a bracket expression means: only an unquoted hyphen makes a range. -/
def Tok.item : Tok → Item
  | .plain c => if c = '-' then .dash else .point [c]
  | .quoted c => .point [c]
  | .sym k t => if k = ':' then .charClass t else if k = '=' then .equivalence t else .point t

/-- Items that have the same text without the quotation.  In `[[\.x]`, the unquoted text opens a
collating symbol. -/
def Plausible : List Tok → Prop
  | [] => True
  | .sym k t :: ts => (∀ a b, t ++ [k] ≠ a ++ k :: ']' :: b) ∧ Plausible ts
  | .plain c :: .quoted d :: ts => (c = '[' → ¬ isKind d) ∧ Plausible (.quoted d :: ts)
  | _ :: ts => Plausible ts

/-- Patterns in whose bracket expressions no quoted character, once its quotation is removed,
takes part in the opening or closing of a symbol. -/
def PlausiblePattern : List Atom → Prop
  | [] => True
  | .set _ ts :: as => Plausible ts ∧ PlausiblePattern as
  | _ :: as => PlausiblePattern as

/-- A component of a pathname pattern: a part without slashes, between slashes or the ends. -/
def Component (pat comp : List Char) : Prop :=
  ∃ a b, pat = a ++ comp ++ b ∧ '/' ∉ comp ∧ (a = [] ∨ ∃ a', a = a' ++ ['/']) ∧
    (b = [] ∨ ∃ b', b = '/' :: b')

section
variable (loc : Locale)

/-- Whether an atom other than an asterisk matches a character. -/
def Accepts (icase : Bool) : Atom → Char → Prop
  | .lit c, d => if icase then loc.same c d = true else c = d
  | .any, _ => True
  | .star, _ => False
  | .set neg ts, d => loc.member icase neg (ts.map Tok.item) d = true

/-- Whether a pattern matches a whole string. -/
inductive Matches (icase : Bool) : List Atom → List Char → Prop
  | nil : Matches icase [] []
  | star (as : List Atom) (u v : List Char) :
      Matches icase as v → Matches icase (.star :: as) (u ++ v)
  | one (a : Atom) (c : Char) (as : List Atom) (s : List Char) :
      Accepts loc icase a c → Matches icase as s → Matches icase (a :: as) (c :: s)

/-- The substring of `s` from `i` to `j` matches. -/
def MatchesAt (icase : Bool) (as : List Atom) (s : List Char) (i j : Nat) : Prop :=
  i ≤ j ∧ j ≤ s.length ∧ Matches loc icase as ((s.take j).drop i)

/-- Which part of the string is searched for. -/
inductive Goal where
  /-- the whole string -/
  | whole
  /-- the shortest and the longest matching prefix -/
  | shortestPrefix
  | longestPrefix
  /-- the shortest and the longest matching suffix -/
  | shortestSuffix
  | longestSuffix
  /-- the leftmost matching substring, and the longest one of them -/
  | leftmost
  deriving DecidableEq

/-- `i` and `j` delimit a part of the string that is eligible. -/
def Goal.Eligible (g : Goal) (s : List Char) (i j : Nat) : Prop :=
  match g with
  | .whole => i = 0 ∧ j = s.length
  | .shortestPrefix | .longestPrefix => i = 0
  | .shortestSuffix | .longestSuffix => j = s.length
  | .leftmost => True

/-- The part from `i` to `j` is no worse than the one from `i'` to `j'`. -/
def Goal.Better (g : Goal) (i j i' j' : Nat) : Prop :=
  match g with
  | .whole => True
  | .shortestPrefix => j ≤ j'
  | .longestPrefix => j' ≤ j
  | .shortestSuffix => i' ≤ i
  | .longestSuffix => i ≤ i'
  | .leftmost => i < i' ∨ (i = i' ∧ j' ≤ j)

/-- The result of searching a string: the best eligible part that matches. -/
def Finds (icase : Bool) (g : Goal) (as : List Atom) (s : List Char) (r : Option (Nat × Nat)) : Prop :=
  match r with
  | none => ∀ i j, g.Eligible s i j → ¬ MatchesAt loc icase as s i j
  | some (i, j) =>
    g.Eligible s i j ∧ MatchesAt loc icase as s i j ∧
      ∀ i' j', g.Eligible s i' j' → MatchesAt loc icase as s i' j' → g.Better i j i' j'

/-- Replacing every match from left to right: the first one is the leftmost, and the longest of
those, and the rest is searched in what follows it.  Empty matches are not replaced. -/
inductive SubstAll (as : List Atom) (repl : List Char) : List Char → List Char → Prop
  | done (s : List Char) (r : Option (Nat × Nat)) :
      Finds loc false .leftmost as s r → (∀ i j, r = some (i, j) → i = j) → SubstAll as repl s s
  | step (s : List Char) (i j : Nat) (s' : List Char) :
      Finds loc false .leftmost as s (some (i, j)) → i < j →
      SubstAll as repl (s.drop j) s' → SubstAll as repl s (s.take i ++ repl ++ s')

/-- Replacing one match. -/
def SubstOne (g : Goal) (as : List Atom) (repl s s' : List Char) : Prop :=
  ∃ r, Finds loc false g as s r ∧
    match r with
    | none => s' = s
    | some (i, j) => s' = if i < j then s.take i ++ repl ++ s.drop j else s

/-- Removing the part that is found. -/
def Trim (g : Goal) (as : List Atom) (s s' : List Char) : Prop :=
  ∃ r, Finds loc false g as s r ∧
    match r with
    | none => s' = s
    | some (i, j) => s' = s.take i ++ s.drop j

end

end Yash.Fnmatch.Spec
