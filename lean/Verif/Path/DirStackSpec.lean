import Verif.Path.DirStack
import Verif.Path.CdSpec
/-!
# What is expected of the directory stack
-/
set_option autoImplicit false

namespace Yash.Path.Spec

open Variable (Name Word Shell)
open Variable.Spec (Visible varAt Sane)

/-- The entries below the working directory, the topmost first: the elements of `DIRSTACK` in reverse, or
none if `DIRSTACK` is not an array. -/
def Below (sh : Shell) (ds : List Word) : Prop :=
  (∃ d v, Visible sh "DIRSTACK".toList d v ∧ v.value = .array ds.reverse) ∨
  ((∀ d v ws, Visible sh "DIRSTACK".toList d v → v.value ≠ .array ws) ∧ ds = [])

/-- All the entries of the directory stack: the working directory is at the top. -/
def Entries (sh : Shell) (es : List Word) : Prop :=
  ∃ p ds, Value sh "PWD".toList p ∧ Below sh ds ∧ es = p :: ds

/-- `DIRSTACK` does not keep anyone from changing the stack. -/
def Changeable (sh : Shell) : Prop :=
  ∀ d v, Visible sh "DIRSTACK".toList d v → (∃ ws, v.value = .array ws) ∧ v.readonly = false

/-- A decimal number without sign. -/
def Numeral (s : Word) (n : Nat) : Prop :=
  s ≠ [] ∧ (∀ c ∈ s, c.isDigit = true) ∧ n = s.foldl (fun a c => a * 10 + (c.toNat - '0'.toNat)) 0

/-- A text that is an index: a sign and a number that a `long` can hold. -/
def IndexText (s : Word) : Prop :=
  ∃ ds n, Numeral ds n ∧ ((s = '+' :: ds ∧ n ≤ 9223372036854775807) ∨
    (s = '-' :: ds ∧ n ≤ 9223372036854775808))

/-- A text designates an entry: `+n` the `n`-th from the top, `-n` the `n`-th from the bottom. -/
inductive Designates (es : List Word) : Word → Nat → Prop where
  | plus (ds : Word) (n : Nat) : Numeral ds n → n ≤ 9223372036854775807 → n < es.length →
      Designates es ('+' :: ds) n
  | minus (ds : Word) (n k : Nat) : Numeral ds n → n ≤ 9223372036854775807 → k + n + 1 = es.length →
      Designates es ('-' :: ds) k

/-- What the operand of `pushd` asks for: a directory, whether it is to be printed, and the entry of the stack
that it is taken from. -/
inductive PushOperand (sh : Shell) (es : List Word) (given : Bool) : Word → Word → Bool → Option Nat → Prop where
  | back (d : Word) : given = true → Value sh "OLDPWD".toList d → d ≠ [] →
      PushOperand sh es given "-".toList d true none
  | index (s d : Word) (k : Nat) : Designates es s k → es[k]? = some d → PushOperand sh es given s d false (some k)
  | directory (s : Word) : ¬ IndexText s → ¬ (given = true ∧ s = "-".toList) → PushOperand sh es given s s false none

/-- A script that leaves `DIRSTACK` alone. -/
def Neutral {N : Type} (hook : World N → World N) : Prop :=
  ∀ w, Sane w.sh → Sane (hook w).sh ∧ ∀ d, varAt (hook w).sh d "DIRSTACK".toList = varAt w.sh d "DIRSTACK".toList

/-- The entries without the one that `pushd` takes out. -/
def without (es : List Word) : Option Nat → List Word
  | none => es
  | some k => es.take k ++ es.drop (k + 1)

end Yash.Path.Spec
