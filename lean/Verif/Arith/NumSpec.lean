import Verif.Arith.Long
/-!
# Specification of integer constants

The constants of the C language, with the place value of digits.
-/
set_option autoImplicit false

namespace Yash.Arith.Spec

/-- The character `c` is the digit `d` of the given base. -/
def Digit (base : Nat) (c : Char) (d : Nat) : Prop :=
  d < base ∧ ("0123456789abcdef".toList[d]? = some c ∨ "0123456789ABCDEF".toList[d]? = some c)

/-- `cs` is a string of digits and its value is `n`: the leftmost digit counts most. -/
inductive Digits (base : Nat) : List Char → Nat → Prop
  | nil : Digits base [] 0
  | cons {c : Char} {d n : Nat} {cs : List Char} : Digit base c d → Digits base cs n →
      Digits base (c :: cs) (d * base ^ cs.length + n)

/-- An integer constant without sign: decimal unless it starts with `0`, octal if it starts with
`0`, hexadecimal if it starts with `0x` or `0X`. -/
inductive Constant : List Char → Nat → Prop
  | decimal {c : Char} {cs : List Char} {n : Nat} : c ≠ '0' → Digits 10 (c :: cs) n →
      Constant (c :: cs) n
  | octal {cs : List Char} {n : Nat} : Digits 8 cs n → Constant ('0' :: cs) n
  | hexadecimal {x : Char} {cs : List Char} {n : Nat} : x = 'x' ∨ x = 'X' → cs ≠ [] →
      Digits 16 cs n → Constant ('0' :: x :: cs) n

/-- An integer constant with an optional sign. -/
inductive Signed : List Char → Int → Prop
  | plain {s : List Char} {n : Nat} : Constant s n → Signed s n
  | plus {s : List Char} {n : Nat} : Constant s n → Signed ('+' :: s) n
  | minus {s : List Char} {n : Nat} : Constant s n → Signed ('-' :: s) (-n)

/-- The shortest decimal constant: no superfluous zeros and a sign only if negative. -/
def Canonical (s : List Char) (n : Int) : Prop :=
  (n = 0 ∧ s = ['0'])
  ∨ (0 < n ∧ ∃ c cs, s = c :: cs ∧ c ≠ '0' ∧ ∃ m, Digits 10 s m ∧ n = m)
  ∨ (n < 0 ∧ ∃ c cs, s = '-' :: c :: cs ∧ c ≠ '0' ∧ ∃ m, Digits 10 (c :: cs) m ∧ n = -m)

end Yash.Arith.Spec
