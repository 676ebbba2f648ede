/-!
# Basic regular expressions of the C library

`regcomp` and `regexec` as POSIX defines them (XBD 9.3), for expressions without groups, interval
expressions and back references.  This is a description of the environment, not of the shell.
-/
set_option autoImplicit false

namespace Yash.Fnmatch

/-- The items of a bracket expression: a character, or `[.t.]`, `[:t:]` or `[=t=]`. -/
inductive BTok where
  | plain (c : Char)
  | sym (kind : Char) (t : List Char)
  deriving DecidableEq

inductive BAtom where
  | lit (c : Char)
  | any
  | set (neg : Bool) (items : List BTok)
  deriving DecidableEq

/-- A regular expression: anchors, and atoms with a flag for a following asterisk. -/
structure Regex where
  head : Bool
  atoms : List (BAtom × Bool)
  tail : Bool
  icase : Bool

/-- What the items of a bracket expression mean: `-` between two end points is a range; a
character and its collating symbol are the same end point. -/
inductive Item where
  | dash
  | point (t : List Char)
  | equivalence (t : List Char)
  | charClass (t : List Char)
  deriving DecidableEq

def BTok.item : BTok → Item
  | .plain '-' => .dash
  | .plain c => .point [c]
  | .sym ':' t => .charClass t
  | .sym '=' t => .equivalence t
  | .sym _ t => .point t

/-- The locale. -/
structure Locale where
  /-- case insensitive comparison -/
  same : Char → Char → Bool
  /-- membership in a bracket expression -/
  member : (icase neg : Bool) → List Item → Char → Bool

/-- The items up to the closing bracket, and the rest.  The first argument is the kind and the text
of a symbol that has been opened. -/
def breItems : Option (Char × List Char) → List Char → Option (List BTok × List Char)
  | none, ']' :: r => some ([], r)
  | none, '[' :: k :: r =>
    if k = '.' ∨ k = ':' ∨ k = '=' then breItems (some (k, [])) r
    else
      match breItems none (k :: r) with
      | some (ts, rest) => some (.plain '[' :: ts, rest)
      | none => none
  | none, c :: r =>
    match breItems none r with
    | some (ts, rest) => some (.plain c :: ts, rest)
    | none => none
  | some (k, t), c :: d :: r =>
    if c = k ∧ d = ']' then
      match breItems none r with
      | some (ts, rest) => some (.sym k t :: ts, rest)
      | none => none
    else breItems (some (k, t ++ [c])) (d :: r)
  | _, _ => none

/-- A bracket expression after the opening bracket. -/
def breBracket (s : List Char) : Option (BAtom × List Char) :=
  let n := match s with
    | '^' :: r => (true, r)
    | r => (false, r)
  match n.2 with
  | ']' :: r =>
    match breItems none r with
    | some (ts, rest) => some (.set n.1 (.plain ']' :: ts), rest)
    | none => none
  | r =>
    match breItems none r with
    | some (ts, rest) => some (.set n.1 ts, rest)
    | none => none

/-- Whether the string begins with the character, and the rest. -/
def splitOff (c : Char) : List Char → Bool × List Char
  | [] => (false, [])
  | d :: r => if d = c then (true, r) else (false, d :: r)

/-- An atom. -/
def breAtom (start : Bool) (s : List Char) : Option (BAtom × List Char) :=
  match s with
  | [] => none
  | '.' :: r => some (.any, r)
  | '[' :: r => breBracket r
  | '\\' :: c :: r =>
    if c ∈ ['.', '*', '[', ']', '^', '$', '\\'] then some (.lit c, r) else none
  | '\\' :: [] => none
  | '*' :: r => if start then some (.lit '*', r) else none
  | c :: r => some (.lit c, r)

/-- Atoms, and whether a `$` follows.  The fuel is more than the length of the string. -/
def breAtoms : Nat → Bool → List Char → Option (List (BAtom × Bool) × Bool)
  | 0, _, _ => none
  | n + 1, start, s =>
    if s = [] then some ([], false)
    else if s = ['$'] then some ([], true)
    else
      match breAtom start s with
      | none => none
      | some (a, r) =>
        match breAtoms n false (splitOff '*' r).2 with
        | some (as, t) => some ((a, (splitOff '*' r).1) :: as, t)
        | none => none

/-- `regcomp` without `REG_EXTENDED` -/
def regcomp (icase : Bool) (s : List Char) : Option Regex :=
  let h := splitOff '^' s
  match breAtoms (h.2.length + 1) true h.2 with
  | some (as, t) => some ⟨h.1, as, t, icase⟩
  | none => none

section
variable (loc : Locale)

/-- Whether an atom matches a character. -/
def BAtom.test (icase : Bool) : BAtom → Char → Bool
  | .lit c, d => if icase then loc.same c d else c == d
  | .any, _ => true
  | .set neg items, d => loc.member icase neg (items.map BTok.item) d

/-- A repeated atom, followed by what `k` matches. -/
def starMatch (a : Char → Bool) (k : List Char → Bool) : List Char → Bool
  | [] => k []
  | c :: s => k (c :: s) || (a c && starMatch a k s)

/-- Whether atoms match a whole string. -/
def atomsMatch (icase : Bool) : List (BAtom × Bool) → List Char → Bool
  | [], s => s.isEmpty
  | (a, true) :: as, s => starMatch (a.test loc icase) (atomsMatch icase as) s
  | (_, false) :: _, [] => false
  | (a, false) :: as, c :: s => a.test loc icase c && atomsMatch icase as s

/-- Whether the substring from `i` to `j` matches. -/
def Regex.matchAt (re : Regex) (s : List Char) (i j : Nat) : Bool :=
  (!re.head || i == 0) && (!re.tail || j == s.length)
    && atomsMatch loc re.icase re.atoms ((s.take j).drop i)

/-- `regexec`: the leftmost match, and among those the longest. -/
def regexec (re : Regex) (s : List Char) : Option (Nat × Nat) :=
  (List.range (s.length + 1)).findSome? fun i =>
    ((List.range (s.length + 1)).reverse.find? fun j => decide (i ≤ j) && re.matchAt loc s i j).map
      fun j => (i, j)

end

end Yash.Fnmatch
