import Verif.Arith.Long
/-!
# Specification of integer arithmetic

The mathematical value of each operator, and when it is an error.
-/
set_option autoImplicit false

namespace Yash.Arith.Spec

/-- The mathematical result if it is between -2^63 and 2^63 - 1, otherwise an overflow error. -/
def exact (n : Int) : Outcome :=
  if h : -2 ^ 63 ≤ n ∧ n ≤ 2 ^ 63 - 1 then
    .ok ⟨n, by simp only [longMin]; omega, by simp only [longMax]; omega⟩
  else .overflow

/-- `+`, `-`, `*`, and division truncating towards zero with the remainder that belongs to it. -/
def arith (op : Op1) (a b : Int) : Outcome :=
  match op with
  | .add => exact (a + b)
  | .sub => exact (a - b)
  | .mul => exact (a * b)
  | .div => if b = 0 then .divisionByZero else exact (a.tdiv b)
  | .mod =>
    -- the remainder of the one overflowing division is refused as well
    if b = 0 then .divisionByZero else if a = -2 ^ 63 ∧ b = -1 then .overflow
    else exact (a.tmod b)

/-- Bit `i` of the infinite two's complement representation. -/
def bit (a : Int) (i : Nat) : Bool := (a / 2 ^ i) % 2 == 1

/-- The number whose two's complement bits 0 to 62 and sign bit 63 are given by `f`. -/
def ofBits (f : Nat → Bool) : Int :=
  ((List.range 63).map (fun i => if f i then (2 : Int) ^ i else 0)).sum
    - (if f 63 then 2 ^ 63 else 0)

/-- Shifts multiply by and divide (rounding down) by a power of two; the other operators work
bit by bit. -/
def bits (op : Op2) (a b : Int) : Outcome :=
  match op with
  | .shl =>
    if a < 0 then .negativeLeftShift
    else if b < 0 ∨ 64 ≤ b then .invalidShiftWidth
    else exact (a * 2 ^ b.toNat)
  | .shr =>
    if b < 0 ∨ 64 ≤ b then .invalidShiftWidth
    else exact (a / 2 ^ b.toNat)
  | .band => exact (ofBits fun i => bit a i && bit b i)
  | .bxor => exact (ofBits fun i => bit a i != bit b i)
  | .bor => exact (ofBits fun i => bit a i || bit b i)

/-- The order on the integers. -/
def compare (op : Cmp) (a b : Int) : Prop :=
  match op with
  | .lt => a < b
  | .le => a ≤ b
  | .gt => b < a
  | .ge => b ≤ a
  | .eq => a = b
  | .ne => a ≠ b

end Yash.Arith.Spec
