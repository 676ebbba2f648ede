/-!
# Integer arithmetic of arith.c

`long` is 64 bits wide in two's complement (`LONG_BIT` = 64), as on every platform yash is
usually built for.  C operations on `long` whose result does not fit are undefined behaviour;
they are modelled by functions into `Option Long`, with `none` for undefined behaviour.
-/
set_option autoImplicit false

namespace Yash.Arith

/-- LONG_MAX -/
def longMax : Int := 9223372036854775807
/-- LONG_MIN -/
def longMin : Int := -9223372036854775808
/-- LONG_BIT -/
def longBit : Int := 64

/-- The C type `long`. -/
structure Long where
  val : Int
  lo : longMin ≤ val
  hi : val ≤ longMax

theorem Long.ext {a b : Long} (h : a.val = b.val) : a = b := by
  cases a; cases b; simp_all

instance : DecidableEq Long := fun a b =>
  if h : a.val = b.val then isTrue (Long.ext h) else isFalse (fun e => h (by rw [e]))

/-- A `long` result of a C operation: `none` (undefined behaviour) if it does not fit. -/
def mk? (n : Int) : Option Long :=
  if h : longMin ≤ n ∧ n ≤ longMax then some ⟨n, h.1, h.2⟩ else none

def Long.zero : Long := ⟨0, by decide, by decide⟩
def Long.one : Long := ⟨1, by decide, by decide⟩
/-- The `int` result of a C comparison, converted to `long`. -/
def Long.ofBool (b : Bool) : Long := if b then .one else .zero

/-- The result of an operation that may print an error message and fail. -/
inductive Outcome where
  | ok (r : Long)
  | overflow
  | divisionByZero
  | negativeLeftShift
  | invalidShiftWidth
  deriving DecidableEq

/-- `(unsigned long) v` -/
def toUnsigned (n : Int) : Nat := (n % 18446744073709551616).toNat

/-- arith.c:1456-1471 `long_mul_will_overflow`; `none` if it executes undefined behaviour
(`labs(LONG_MIN)`, or a division by zero). -/
def longMulWillOverflow (v1 v2 : Long) : Option Bool :=
  if v1.val = 0 ∨ v1.val = 1 ∨ v2.val = 0 ∨ v2.val = 1 then some false
  else if v1.val = longMin ∨ v2.val = longMin then some true
  else
    -- unsigned long u1 = labs(v1), u2 = labs(v2);
    (mk? (v1.val.natAbs : Int)).bind fun l1 =>
    (mk? (v2.val.natAbs : Int)).bind fun l2 =>
    let u1 := toUnsigned l1.val
    let u2 := toUnsigned l2.val
    let prod := u1 * u2 % 18446744073709551616
    if u2 = 0 then none
    else if prod = toUnsigned longMin then
      some ((decide (v1.val ≥ 0) == decide (v2.val ≥ 0)) || prod / u2 != u1)
    else some ((prod &&& toUnsigned longMax) / u2 != u1)

/-- The operators of `do_long_calculation1`. -/
inductive Op1 where
  | add | sub | mul | div | mod
  deriving DecidableEq

/-- arith.c:395-437 `do_long_calculation1`; `none` if it executes undefined behaviour. -/
def longCalculation1 (op : Op1) (v1 v2 : Long) : Option Outcome :=
  match op with
  | .add =>
    (if v2.val ≥ 0 then (mk? (longMax - v2.val)).map (fun d => decide (d.val < v1.val))
     else (mk? (longMin - v2.val)).map (fun d => decide (v1.val < d.val))).bind fun c =>
    if c then some .overflow else (mk? (v1.val + v2.val)).map .ok
  | .sub =>
    (if v2.val < 0 then (mk? (longMax + v2.val)).map (fun d => decide (d.val < v1.val))
     else (mk? (longMin + v2.val)).map (fun d => decide (v1.val < d.val))).bind fun c =>
    if c then some .overflow else (mk? (v1.val - v2.val)).map .ok
  | .mul =>
    (longMulWillOverflow v1 v2).bind fun c =>
    if c then some .overflow else (mk? (v1.val * v2.val)).map .ok
  | .div =>
    if v2.val = 0 then some .divisionByZero
    else if v1.val = longMin ∧ v2.val = -1 then some .overflow
    else (mk? (v1.val.tdiv v2.val)).map .ok
  | .mod =>
    if v2.val = 0 then some .divisionByZero
    else if v1.val = longMin ∧ v2.val = -1 then some .overflow
    else (mk? (v1.val.tmod v2.val)).map .ok

/-- The operators of `do_long_calculation2`. -/
inductive Op2 where
  | shl | shr | band | bxor | bor
  deriving DecidableEq

/-- The value of a 64-bit pattern as a `long`. -/
def ofBitVec (b : BitVec 64) : Option Long := mk? b.toInt

/-- arith.c:442-482 `do_long_calculation2`; `none` if it executes undefined behaviour.
The bit operators work on the two's complement representation.  `>>` of a negative number is
implementation defined; it is modelled as the arithmetic shift that gcc and clang perform. -/
def longCalculation2 (op : Op2) (v1 v2 : Long) : Option Outcome :=
  match op with
  | .shl =>
    if v1.val < 0 then some .negativeLeftShift
    else if v2.val < 0 ∨ v2.val ≥ longBit then some .invalidShiftWidth
    else
      let u1 := toUnsigned v1.val
      let s := v2.val.toNat
      if ((u1 <<< s % 18446744073709551616) &&& toUnsigned longMax) >>> s ≠ u1 then some .overflow
      else (mk? (v1.val * 2 ^ s)).map .ok
  | .shr =>
    if v2.val < 0 ∨ v2.val ≥ longBit then some .invalidShiftWidth
    else (mk? (v1.val >>> v2.val.toNat)).map .ok
  | .band => (ofBitVec (BitVec.ofInt 64 v1.val &&& BitVec.ofInt 64 v2.val)).map .ok
  | .bxor => (ofBitVec (BitVec.ofInt 64 v1.val ^^^ BitVec.ofInt 64 v2.val)).map .ok
  | .bor => (ofBitVec (BitVec.ofInt 64 v1.val ||| BitVec.ofInt 64 v2.val)).map .ok

/-- The comparison operators. -/
inductive Cmp where
  | lt | le | gt | ge | eq | ne
  deriving DecidableEq

/-- arith.c:485-503 `do_long_comparison` -/
def longComparison (op : Cmp) (v1 v2 : Long) : Long :=
  match op with
  | .lt => .ofBool (v1.val < v2.val)
  | .le => .ofBool (v1.val ≤ v2.val)
  | .gt => .ofBool (v1.val > v2.val)
  | .ge => .ofBool (v1.val ≥ v2.val)
  | .eq => .ofBool (v1.val = v2.val)
  | .ne => .ofBool (v1.val ≠ v2.val)

/-- arith.c:937-949: unary minus on a `long`. -/
def longNegate (v : Long) : Option Outcome :=
  if v.val = longMin then some .overflow else (mk? (-v.val)).map .ok

/-- arith.c:955-961: `~` on a `long`. -/
def longComplement (v : Long) : Option Long := ofBitVec (~~~ BitVec.ofInt 64 v.val)

/-- arith.c:1029-1059 `do_increment_or_decrement` on a `long`. -/
def longIncDec (inc : Bool) (v : Long) : Option Outcome :=
  if inc then
    if v.val = longMax then some .overflow else (mk? (v.val + 1)).map .ok
  else
    if v.val = longMin then some .overflow else (mk? (v.val - 1)).map .ok

end Yash.Arith
