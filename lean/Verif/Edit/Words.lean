/-!
# Model of the word motions of line editing (`lineedit/editing.c`, lines 1230-1284, 1363-1417, 1503-1594, 1640-1673)

A line is a list of characters; `s[i]` beyond the last one is the terminating null character, of which `iswblank`, `iswpunct`
and `iswalnum` are false.  The functions that jump back to `start` have a bound on the number of jumps; `none` would be an
endless loop.
-/
set_option autoImplicit false

namespace Yash.Edit

/-- The predicates of the locale (`iswblank`, `iswpunct`, `iswalnum`, `iswlower`) and `towupper`, `towlower`. -/
structure Chars where
  blank : Char → Bool
  punct : Char → Bool
  alnum : Char → Bool
  lower : Char → Bool
  toUpper : Char → Char
  toLower : Char → Char

/-- `p` of the character at `i`; false of the null character. -/
def isAt (p : Char → Bool) (s : List Char) (i : Nat) : Bool :=
  match s[i]? with
  | some c => p c
  | none => false

/-- `while (s[i] != L'\0' && p(s[i])) i++;` -/
def skip (p : Char → Bool) (s : List Char) (i : Nat) : Nat := i + ((s.drop i).takeWhile p).length

/-- `while (i > 0 && q(s[i])) i--;` -/
def back (q : Nat → Bool) : Nat → Nat
  | 0 => 0
  | i + 1 => if q (i + 1) then back q i else i + 1

/-- The kinds of words whose motions have the same shape: bigwords and semiwords. -/
inductive WordKind where
  | bigword
  | semiword
  | viword
deriving DecidableEq, Repr

/-- What separates bigwords and semiwords. -/
def separator (C : Chars) : WordKind → Char → Bool
  | .semiword, c => C.blank c || C.punct c
  | _, c => C.blank c

/-- Part of a viword of letters: `c == L'_' || iswalnum(c)`. -/
def viAlnum (C : Chars) (c : Char) : Bool := c == '_' || C.alnum c

/-- `next_bigword_index` (1233-1240), `next_semiword_index` (1366-1373). -/
def nextPlain (sep : Char → Bool) (s : List Char) (i : Nat) : Nat :=
  skip sep s (skip (fun c => !sep c) s i)

/-- `next_viword_index` (1507-1530). -/
def nextVi (C : Chars) (s : List Char) (i : Nat) : Nat :=
  if isAt (viAlnum C) s i then
    let j := skip (viAlnum C) s (i + 1)
    if !isAt C.blank s j then j else skip C.blank s (j + 1)
  else if isAt C.blank s i then skip C.blank s (i + 1)
  else
    match s[i]? with
    | none => i
    | some _ =>
      let j := skip (fun c => !C.blank c && !viAlnum C c) s (i + 1)
      if isAt C.blank s j then skip C.blank s (j + 1) else j

def nextWord (C : Chars) : WordKind → List Char → Nat → Nat
  | .viword => nextVi C
  | k => nextPlain (separator C k)

/-- `next_end_of_bigword_index` (1246-1263), `next_end_of_semiword_index` (1379-1396). -/
def nextEndPlain (sep : Char → Bool) (s : List Char) (progress : Bool) (init : Nat) : Nat → Nat → Option Nat
  | 0, _ => none
  | n + 1, i =>
    match s[i]? with
    | none => some i
    | some _ =>
      let j := skip (fun c => !sep c) s (skip sep s i) - 1
      if j > init || !progress then some j else nextEndPlain sep s progress init n (j + 1)

/-- `next_end_of_viword_index` (1539-1564). -/
def nextEndVi (C : Chars) (s : List Char) (progress : Bool) (init : Nat) : Nat → Nat → Option Nat
  | 0, _ => none
  | n + 1, i =>
    let i := skip C.blank s i
    match s[i]? with
    | none => some i
    | some c =>
      let j := (if viAlnum C c then skip (viAlnum C) s (i + 1)
        else skip (fun c => !viAlnum C c && !C.blank c) s (i + 1)) - 1
      if j > init || !progress then some j else nextEndVi C s progress init n (j + 1)

def nextEnd (C : Chars) : WordKind → List Char → Nat → Bool → Option Nat
  | .viword, s, i, progress => nextEndVi C s progress i (i + s.length + 2) i
  | k, s, i, progress => nextEndPlain (separator C k) s progress i (i + s.length + 2) i

/-- `previous_bigword_index` (1267-1284), `previous_semiword_index` (1400-1417), `previous_emacsword_index` (1656-1673):
`sepAt` says of an index whether the character separates words. -/
def prevPlain (sepAt : Nat → Bool) (init : Nat) : Nat → Nat → Option Nat
  | 0, _ => none
  | n + 1, i =>
    let i := back (fun i => !sepAt i) (back sepAt i)
    if i = 0 then some 0
    else if i + 1 < init then some (i + 1)
    else prevPlain sepAt init n i

/-- `do { if (i == 0) return 0; i--; } while (q(s[i]));` — `none` is the `return`. -/
def backDo (q : Nat → Bool) : Nat → Option Nat
  | 0 => none
  | i + 1 => if q i then backDo q i else some i

/-- `previous_viword_index` (1568-1594). -/
def prevVi (C : Chars) (s : List Char) (init : Nat) : Nat → Nat → Option Nat
  | 0, _ => none
  | n + 1, i =>
    let i := back (isAt C.blank s) i
    match (if isAt (viAlnum C) s i then backDo (isAt (viAlnum C) s) i
      else backDo (fun i => !isAt (viAlnum C) s i && !isAt C.blank s i) i) with
    | none => some 0
    | some i => if i + 1 < init then some (i + 1) else prevVi C s init n i

def prevWord (C : Chars) : WordKind → List Char → Nat → Option Nat
  | .viword, s, i => prevVi C s i (i + 2) i
  | k, s, i => prevPlain (isAt (separator C k) s) i (i + 2) i

/-- `next_emacsword_index` (1644-1651). -/
def nextEmacs (C : Chars) (s : List Char) (i : Nat) : Nat :=
  skip C.alnum s (skip (fun c => !C.alnum c) s i)

/-- `previous_emacsword_index` (1656-1673): here the null character does separate words. -/
def prevEmacs (C : Chars) (s : List Char) (i : Nat) : Option Nat :=
  prevPlain (fun i => !isAt C.alnum s i) i (i + 2) i

end Yash.Edit
