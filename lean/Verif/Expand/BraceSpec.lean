import Verif.Expand.Types
/-!
# Specification of brace expansion

A word is described by a tree: characters and brace groups.  `render` gives the text of a tree,
`expand` the words it expands to: one alternative is chosen from every group, the leftmost choice
varying slowest.  A group without a comma is a numeric sequence or else stands for itself.

`Canonical` says that the tree is the reading of its text in which every brace is paired with its
partner: inside groups all the unquoted literal braces and commas are those of groups, and outside
of groups there is no unquoted literal `}` anywhere after an unquoted literal `{`.
-/
set_option autoImplicit false

namespace Yash.Expand.Spec

mutual
/-- A word: a sequence of characters and groups. -/
inductive Tree where
  | nil
  | chr (c : CChar) (rest : Tree)
  | group (alts : Alts) (rest : Tree)
/-- The alternatives of a group. -/
inductive Alts where
  | one (t : Tree)
  | more (t : Tree) (alts : Alts)
end

/-- An unquoted character of the original word. -/
abbrev lit (c : Char) : CChar := (c, CC.lit)

mutual
/-- The text of a tree. -/
def Tree.render : Tree → CWord
  | .nil => []
  | .chr c r => c :: r.render
  | .group a r => lit '{' :: (a.render ++ lit '}' :: r.render)
/-- The text of the alternatives. -/
def Alts.render : Alts → CWord
  | .one t => t.render
  | .more t a => t.render ++ lit ',' :: a.render
end

/-! Numeric sequences -/

/-- The value of a decimal digit string. -/
def decimal : List Char → Option Nat
  | [] => none
  | ds => ds.foldlM (fun a c => if '0' ≤ c ∧ c ≤ '9' then some (10 * a + (c.toNat - 48)) else none) 0

/-- The value of a numeral: white space, an optional sign, digits. -/
def numeral (space : Char → Bool) (s : List Char) : Option Int :=
  match s.dropWhile space with
  | '+' :: ds => (decimal ds).map (fun n => (n : Int))
  | '-' :: ds => (decimal ds).map (fun n => - (n : Int))
  | ds => (decimal ds).map (fun n => (n : Int))

/-- Whether a numeral has a plus sign. -/
def hasPlus (space : Char → Bool) (s : List Char) : Bool :=
  (s.dropWhile space).head? == some '+'

/-- Whether the digits of a numeral start with zero. -/
def zeroPadded (space : Char → Bool) (s : List Char) : Bool :=
  match s.dropWhile space with
  | '+' :: ds => ds.head? == some '0'
  | '-' :: ds => ds.head? == some '0'
  | ds => ds.head? == some '0'

/-- Cuts at every `..`. -/
def splitDots : List Char → List (List Char)
  | [] => [[]]
  | '.' :: '.' :: s => [] :: splitDots s
  | c :: s =>
    match splitDots s with
    | [] => [[c]]
    | x :: xs => (c :: x) :: xs

/-- A numeric sequence. -/
structure Sequence where
  start : Int
  stop : Int
  step : Int
  plus : Bool
  width : Nat

/-- The reading of `start..stop` or `start..stop..step`: all numbers in the range of `long`, the
step not zero (it defaults to 1 or -1).  Numbers are padded with zeros to the longer of the
numerals that start with a zero. -/
def sequence? (space : Char → Bool) (lmin lmax : Int) (s : List Char) : Option Sequence :=
  let inRange (x : Int) : Prop := lmin ≤ x ∧ x ≤ lmax
  let width (a : List Char) : Nat := if zeroPadded space a then a.length else 0
  match splitDots s with
  | [a, b] =>
    match numeral space a, numeral space b with
    | some x, some y =>
      if inRange x ∧ inRange y then
        some ⟨x, y, if x ≤ y then 1 else -1, hasPlus space a || hasPlus space b,
          max (width a) (width b)⟩
      else none
    | _, _ => none
  | [a, b, c] =>
    match numeral space a, numeral space b, numeral space c with
    | some x, some y, some d =>
      if inRange x ∧ inRange y ∧ inRange d ∧ d ≠ 0 then
        some ⟨x, y, d, hasPlus space a || hasPlus space b, max (width a) (width b)⟩
      else none
    | _, _, _ => none
  | _ => none

/-- `v` lies beyond `stop` in the direction of the step. -/
def Beyond (stop step v : Int) : Prop := if 0 < step then stop < v else v < stop

instance (stop step v : Int) : Decidable (Beyond stop step v) := by
  unfold Beyond; infer_instance

/-- `vs` is the progression: the start value, then every further value up to `stop`. -/
def IsProgression (start stop step : Int) (vs : List Int) : Prop :=
  ∃ n, vs = (List.range (n + 1)).map (fun i => start + step * (i : Nat)) ∧
    (∀ i, 0 < i → i ≤ n → ¬ Beyond stop step (start + step * (i : Nat))) ∧
    Beyond stop step (start + step * ((n + 1 : Nat) : Int))

/-- The progression as a list. -/
def progression (start stop step : Int) : List Int :=
  let n := if Beyond stop step start then 0 else (stop - start).natAbs / step.natAbs
  (List.range (n + 1)).map (fun i => start + step * (i : Nat))

/-- Decimal notation with a sign and padding. -/
def showInt (plus : Bool) (width : Nat) (v : Int) : List Char :=
  let sg := if v < 0 then ['-'] else if plus then ['+'] else []
  let ds := (Nat.repr v.natAbs).toList
  sg ++ List.replicate (width - (sg.length + ds.length)) '0' ++ ds

/-- The words of a group without a comma, if it is a sequence. -/
def sequenceWords (space : Char → Bool) (lmin lmax : Int) (content : CWord) :
    Option (List CWord) :=
  if content.any (fun c => c.2.quoted) then none
  else (sequence? space lmin lmax (text content)).map fun q =>
    (progression q.start q.stop q.step).map fun v =>
      (showInt q.plus q.width v).map fun c => (c, { origin := .hard })

mutual
/-- The words a tree expands to; `seq` gives the words of a numeric sequence. -/
def Tree.expand (seq : CWord → Option (List CWord)) : Tree → List CWord
  | .nil => [[]]
  | .chr c r => (r.expand seq).map (c :: ·)
  | .group a r => (a.choices seq).flatMap fun x => (r.expand seq).map (x ++ ·)
/-- The words a group expands to. -/
def Alts.choices (seq : CWord → Option (List CWord)) : Alts → List CWord
  | .one t =>
    match seq t.render with
    | some ws => ws
    | none => (t.expand seq).map (fun x => lit '{' :: (x ++ [lit '}']))
  | .more t a => t.expand seq ++ a.alternatives seq
/-- The words of the alternatives after the first comma. -/
def Alts.alternatives (seq : CWord → Option (List CWord)) : Alts → List CWord
  | .one t => t.expand seq
  | .more t a => t.expand seq ++ a.alternatives seq
end

/-- A brace or comma that may belong to a group. -/
def special (c : CChar) : Prop := c = lit '{' ∨ c = lit ',' ∨ c = lit '}'

instance (c : CChar) : Decidable (special c) := by unfold special; infer_instance

mutual
/-- No special characters outside of groups, at any depth. -/
def Tree.Clean : Tree → Prop
  | .nil => True
  | .chr c r => ¬ special c ∧ r.Clean
  | .group a r => a.Clean ∧ r.Clean
/-- The same for alternatives. -/
def Alts.Clean : Alts → Prop
  | .one t => t.Clean
  | .more t a => t.Clean ∧ a.Clean
end

/-- No literal `}` outside of groups. -/
def Tree.NoClose : Tree → Prop
  | .nil => True
  | .chr c r => c ≠ lit '}' ∧ r.NoClose
  | .group _ r => r.NoClose

/-- The tree is the correct reading of its text. -/
def Tree.Canonical : Tree → Prop
  | .nil => True
  | .chr c r => (c = lit '{' → r.NoClose) ∧ r.Canonical
  | .group a r => a.Clean ∧ r.Canonical

end Yash.Expand.Spec
