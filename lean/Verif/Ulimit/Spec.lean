import Verif.Ulimit.Model
import Verif.Sig.NameLemmas
/-!
# Specification of the `ulimit` built-in
-/
set_option autoImplicit false

namespace Yash.Ulimit.Spec

open Yash.Sig.Names.Spec (Numeral)

/-- The letters of the resources and the units in which their limits are given. -/
def unit : Char → Option Nat
  | 'c' | 'f' => some 512
  | 'd' | 'l' | 'm' | 's' | 'v' => some 1024
  | 'e' | 'i' | 'n' | 'q' | 'r' | 't' | 'u' | 'x' => some 1
  | _ => none

/-- The options are given by their letters, one or more in an argument; then come the operands, which do not begin with a hyphen unless they come after `--`. -/
inductive Usage : List Char → List Str → List Str → Prop
  | operands {ops : List Str} : (∀ o ∈ ops, o.head? ≠ some '-') → Usage [] ops ops
  | separated {ops : List Str} : Usage [] ("--".toList :: ops) ops
  | options {letters more : List Char} {args ops : List Str} : letters ≠ [] → (∀ c ∈ letters, c = 'H' ∨ c = 'S' ∨ c = 'a' ∨ unit c ≠ none) → Usage more args ops →
      Usage (letters ++ more) (('-' :: letters) :: args) ops

/-- The last of `H` and `S` counts: whether the hard and the soft limit are set. -/
inductive Selects : List Char → Bool → Bool → Prop
  | both {letters : List Char} : 'H' ∉ letters → 'S' ∉ letters → Selects letters true true
  | hard {before after : List Char} : 'H' ∉ after → 'S' ∉ after → Selects (before ++ 'H' :: after) true false
  | soft {before after : List Char} : 'H' ∉ after → 'S' ∉ after → Selects (before ++ 'S' :: after) false true

/-- The last option for a resource counts; it is the size of files if there is none. -/
inductive Chooses : List Char → Char → Nat → Prop
  | none {letters : List Char} : (∀ c ∈ letters, unit c = .none) → Chooses letters 'f' 512
  | last {before after : List Char} {c : Char} {u : Nat} : unit c = some u → (∀ d ∈ after, unit d = .none) → Chooses (before ++ c :: after) c u

/-- Values of limits that are numbers. -/
def Ordinary (C : Config) (n : Nat) : Prop := n ≠ C.infinity ∧ n ≠ C.savedMax ∧ n ≠ C.savedCur

/-- What an operand means, given the limits that the resource has: a number counts units. -/
inductive Means (C : Config) (u : Nat) (l : Limit) : Str → Nat → Prop
  | hard : Means C u l "hard".toList l.max
  | soft : Means C u l "soft".toList l.cur
  | unlimited : Means C u l "unlimited".toList C.infinity
  | number {s : Str} {v : Nat} : Numeral s v → v < C.ulongs → v * u < C.rlimits → Ordinary C (v * u) → Means C u l s (v * u)

/-- The soft limit is above the hard limit. (Of the values that the system cannot represent nothing is known.) -/
def Exceeds (C : Config) (l : Limit) : Prop :=
  Ordinary C l.max ∧ (l.cur = C.infinity ∨ (Ordinary C l.cur ∧ l.max < l.cur))

end Yash.Ulimit.Spec
