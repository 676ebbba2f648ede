import Verif.Arith.LongSpec
/-!
# Integer arithmetic is exact or reports an error (C08)
-/
set_option autoImplicit false

namespace Yash.Arith

theorem mk?_pos {n : Int} (h1 : longMin ≤ n) (h2 : n ≤ longMax) : mk? n = some ⟨n, h1, h2⟩ := by
  rw [mk?, dif_pos ⟨h1, h2⟩]

theorem exact_pos {n : Int} (h1 : longMin ≤ n) (h2 : n ≤ longMax) :
    Spec.exact n = .ok ⟨n, h1, h2⟩ := by
  rw [Spec.exact, dif_pos]
  simp only [longMin, longMax] at *; omega

theorem exact_neg {n : Int} (h : ¬ (longMin ≤ n ∧ n ≤ longMax)) : Spec.exact n = .overflow := by
  rw [Spec.exact, dif_neg]
  simp only [longMin, longMax] at *; omega

theorem mk?_exact {n : Int} (h1 : longMin ≤ n) (h2 : n ≤ longMax) :
    (mk? n).map Outcome.ok = some (Spec.exact n) := by
  rw [mk?_pos h1 h2, exact_pos h1 h2]; rfl

theorem toUnsigned_nat {n : Nat} (h : n < 18446744073709551616) : toUnsigned (n : Int) = n := by
  simp only [toUnsigned]; omega

theorem toUnsigned_longMin : toUnsigned longMin = 9223372036854775808 := by decide
theorem toUnsigned_longMax : toUnsigned longMax = 9223372036854775807 := by decide

theorem and_longMax (n : Nat) : n &&& 9223372036854775807 = n % 9223372036854775808 :=
  Nat.and_two_pow_sub_one_eq_mod n 63

/-- The overflow test for multiplication is exact and free of undefined behaviour. -/
theorem longMulWillOverflow_eq (a b : Long) :
    longMulWillOverflow a b
      = some (decide (¬ (longMin ≤ a.val * b.val ∧ a.val * b.val ≤ longMax))) := by
  obtain ⟨a, ha1, ha2⟩ := a
  obtain ⟨b, hb1, hb2⟩ := b
  rw [longMulWillOverflow]
  simp only [longMin, longMax] at ha1 ha2 hb1 hb2
  split
  · rename_i h
    congr 1; symm
    rw [decide_eq_false_iff_not, Decidable.not_not]
    rcases h with h | h | h | h <;> simp only at h <;> subst h <;> simp [longMin, longMax] <;> omega
  rename_i h
  simp only [not_or] at h
  obtain ⟨h1, h2, h3, h4⟩ := h
  have hP : a.natAbs * b.natAbs = (a * b).natAbs := (Int.natAbs_mul a b).symm
  have key : ∀ P : Nat, P = (a * b).natAbs →
      ((longMin ≤ a * b ∧ a * b ≤ longMax) ↔
        (P < 9223372036854775808 ∨ (P = 9223372036854775808 ∧ a * b < 0))) := by
    intro P e; subst e; simp only [longMin, longMax]; omega
  split
  · rename_i h
    congr 1; symm
    rw [decide_eq_true_iff]
    simp only
    rw [key _ rfl, ← hP]
    rcases h with h | h <;> simp only [longMin] at h <;> subst h
    · have : 2 ≤ b.natAbs ∨ b = -1 := by omega
      rcases this with h | h
      · have := Nat.mul_le_mul_left (Int.natAbs (-9223372036854775808)) h
        omega
      · subst h; omega
    · have : 2 ≤ a.natAbs ∨ a = -1 := by omega
      rcases this with h | h
      · have := Nat.mul_le_mul_right (Int.natAbs (-9223372036854775808)) h
        omega
      · subst h; omega
  rename_i h
  simp only [not_or, longMin] at h
  have hu1 : a.natAbs < 9223372036854775808 := by omega
  have hu2 : b.natAbs < 9223372036854775808 := by omega
  have p1 : 1 ≤ a.natAbs := by omega
  have p2 : 1 ≤ b.natAbs := by omega
  rw [mk?_pos (by simp only [longMin]; omega) (by simp only [longMax]; omega),
    mk?_pos (by simp only [longMin]; omega) (by simp only [longMax]; omega)]
  simp only [Option.bind_some]
  rw [toUnsigned_nat (by omega), toUnsigned_nat (by omega), toUnsigned_longMin, toUnsigned_longMax]
  rw [if_neg (by omega)]
  generalize hPP : a.natAbs * b.natAbs = P at hP
  have hsign : (a * b < 0 ↔ ¬ ((a ≥ 0) ↔ (b ≥ 0))) := by
    constructor
    · intro hn hiff
      by_cases ha : a ≥ 0
      · have := Int.mul_nonneg ha (hiff.mp ha); omega
      · have : ¬ b ≥ 0 := fun hb => ha (hiff.mpr hb)
        have := Int.mul_nonneg_of_nonpos_of_nonpos (a := a) (b := b) (by omega) (by omega); omega
    · intro hn
      by_cases ha : a ≥ 0
      · have hb : ¬ b ≥ 0 := fun hb => hn ⟨fun _ => hb, fun _ => ha⟩
        have := Int.mul_neg_of_pos_of_neg (a := a) (b := b) (by omega) (by omega); omega
      · have hb : b ≥ 0 := by
          refine Decidable.byContradiction fun hb => hn ⟨fun h => absurd h ha, fun h => absurd h hb⟩
        have := Int.mul_neg_of_neg_of_pos (a := a) (b := b) (by omega) (by omega); omega
  have hdivP : P / b.natAbs = a.natAbs := by rw [← hPP]; exact Nat.mul_div_cancel _ p2
  split
  · rename_i hprod
    rw [hprod]
    congr 1
    rw [Bool.eq_iff_iff]
    simp only [Bool.or_eq_true, beq_iff_eq, decide_eq_decide, bne_iff_ne, ne_eq,
      decide_eq_true_eq]
    rw [key P hP, hsign]
    by_cases hPe : P = 9223372036854775808
    · rw [hPe] at hdivP
      simp only [hdivP, not_true_eq_false, or_false]
      constructor
      · intro h1 h2; rcases h2 with h2 | h2
        · omega
        · exact h2.2 h1
      · intro h2
        refine Decidable.byContradiction fun h3 => h2 (Or.inr ⟨hPe, h3⟩)
    · have hbig : P > 9223372036854775808 := by omega
      constructor
      · intro _ h2; omega
      · intro _; right
        intro h2
        have := Nat.div_mul_le_self 9223372036854775808 b.natAbs
        rw [h2, hPP] at this; omega
  · rename_i hprod
    congr 1
    rw [Bool.eq_iff_iff, and_longMax]
    simp only [bne_iff_ne, ne_eq, decide_eq_true_eq]
    rw [key P hP]
    have hm : P % 18446744073709551616 % 9223372036854775808 = P % 9223372036854775808 := by omega
    rw [hm]
    by_cases hPs : P < 9223372036854775808
    · rw [Nat.mod_eq_of_lt hPs, hdivP]; simp [hPs]
    · have hne : P ≠ 9223372036854775808 := by intro e; rw [e] at hprod; exact hprod rfl
      constructor
      · intro _ h2; omega
      · intro _ h2
        have := Nat.div_mul_le_self (P % 9223372036854775808) b.natAbs
        rw [h2, hPP] at this; omega

/-- **C08 (arithmetic operators).** `+ - * / %` yield the exact mathematical result if it is a
`long` and report an error otherwise; they never execute undefined behaviour (the result is never
`none`). -/
theorem C08_arithmetic (op : Op1) (a b : Long) :
    longCalculation1 op a b = some (Spec.arith op a.val b.val) := by
  obtain ⟨a, ha1, ha2⟩ := a
  obtain ⟨b, hb1, hb2⟩ := b
  have ha1' := ha1; have ha2' := ha2; have hb1' := hb1; have hb2' := hb2
  simp only [longMin, longMax] at ha1' ha2' hb1' hb2'
  cases op with
  | add =>
    simp only [longCalculation1, Spec.arith]
    split
    · rw [mk?_pos (by simp only [longMin, longMax]; omega) (by simp only [longMax]; omega)]
      simp only [Option.map_some, Option.bind_some, decide_eq_true_eq]
      split
      · rw [exact_neg]; simp only [longMin, longMax] at *; omega
      · rw [mk?_exact] <;> simp only [longMin, longMax] at * <;> omega
    · rw [mk?_pos (by simp only [longMin]; omega) (by simp only [longMin, longMax]; omega)]
      simp only [Option.map_some, Option.bind_some, decide_eq_true_eq]
      split
      · rw [exact_neg]; simp only [longMin, longMax] at *; omega
      · rw [mk?_exact] <;> simp only [longMin, longMax] at * <;> omega
  | sub =>
    simp only [longCalculation1, Spec.arith]
    split
    · rw [mk?_pos (by simp only [longMin, longMax]; omega) (by simp only [longMax]; omega)]
      simp only [Option.map_some, Option.bind_some, decide_eq_true_eq]
      split
      · rw [exact_neg]; simp only [longMin, longMax] at *; omega
      · rw [mk?_exact] <;> simp only [longMin, longMax] at * <;> omega
    · rw [mk?_pos (by simp only [longMin]; omega) (by simp only [longMin, longMax]; omega)]
      simp only [Option.map_some, Option.bind_some, decide_eq_true_eq]
      split
      · rw [exact_neg]; simp only [longMin, longMax] at *; omega
      · rw [mk?_exact] <;> simp only [longMin, longMax] at * <;> omega
  | mul =>
    simp only [longCalculation1, Spec.arith]
    rw [longMulWillOverflow_eq]
    simp only [Option.bind_some, decide_eq_true_eq]
    split
    · rename_i h; rw [exact_neg h]
    · rename_i h
      rw [Decidable.not_not] at h
      rw [mk?_exact h.1 h.2]
  | div =>
    simp only [longCalculation1, Spec.arith]
    split
    · rfl
    · rename_i hb
      have hle : (a.tdiv b).natAbs ≤ a.natAbs := by
        rw [Int.natAbs_tdiv]; exact Nat.div_le_self _ _
      split
      · rename_i h; rw [h.1, h.2]; rfl
      · rename_i h
        have hfit : ¬ (a.tdiv b = 9223372036854775808) := by
          intro he
          have hae : a = -9223372036854775808 := by
            have : a.natAbs ≥ 9223372036854775808 := by omega
            omega
          have hn : a.natAbs / b.natAbs = 9223372036854775808 := by
            have := Int.natAbs_tdiv a b
            rw [he] at this
            exact this.symm
          have hb1 : b.natAbs = 1 := by
            have h2 := Nat.div_mul_le_self a.natAbs b.natAbs
            rw [hn] at h2
            have : b.natAbs ≥ 1 := by omega
            have : a.natAbs = 9223372036854775808 := by omega
            omega
          have hbb : b = 1 ∨ b = -1 := by omega
          rcases hbb with hbb | hbb
          · rw [hbb, hae] at he; revert he; decide
          · exact h ⟨hae, hbb⟩
        rw [mk?_exact] <;> simp only [longMin, longMax] <;> omega
  | mod =>
    simp only [longCalculation1, Spec.arith]
    split
    · rfl
    · rename_i hb
      split
      · rename_i h
        rw [if_pos]; simpa [longMin] using h
      · rename_i h
        rw [if_neg (by simpa [longMin] using h)]
        have hle : (a.tmod b).natAbs < b.natAbs := by
          rw [Int.natAbs_tmod]; exact Nat.mod_lt _ (by omega)
        rw [mk?_exact] <;> simp only [longMin, longMax] <;> omega

theorem sum_range_succ (f : Nat → Int) (k : Nat) :
    ((List.range (k + 1)).map f).sum = ((List.range k).map f).sum + f k := by
  rw [List.range_succ]; simp

theorem sum_testBit (n k : Nat) :
    ((List.range k).map (fun i => if n.testBit i then (2 : Int) ^ i else 0)).sum
      = ((n % 2 ^ k : Nat) : Int) := by
  induction k with
  | zero => simp [Nat.mod_one]
  | succ k ih =>
    rw [sum_range_succ, ih, Nat.mod_pow_succ, Nat.testBit_eq_decide_div_mod_eq]
    have h : n / 2 ^ k % 2 = 0 ∨ n / 2 ^ k % 2 = 1 := by omega
    rcases h with h | h <;> simp [h]

theorem toInt_eq_ofBits (x : BitVec 64) : x.toInt = Spec.ofBits (fun i => x.getLsbD i) := by
  rw [Spec.ofBits]
  have h1 := sum_testBit x.toNat 63
  have h2 : (fun i => x.getLsbD i) = fun i => x.toNat.testBit i := by
    funext i; rw [BitVec.getLsbD]
  have h4 : ∀ i, x.getLsbD i = x.toNat.testBit i := fun i => congrFun h2 i
  simp only [h4]
  rw [h1, BitVec.toInt_eq_toNat_cond]
  have h3 : x.toNat.testBit 63 = decide (9223372036854775808 ≤ x.toNat) := by
    rw [Nat.testBit_eq_decide_div_mod_eq]
    have := x.isLt
    rw [decide_eq_decide]
    omega
  have := x.isLt
  rw [h3]
  by_cases h : 9223372036854775808 ≤ x.toNat
  · simp [h]; omega
  · simp [h]; omega

theorem emod_div_bit (a p m : Int) (hp : p > 0) : a % (p * (2 * m)) / p % 2 = a / p % 2 := by
  rw [Int.emod_def a (p * (2 * m))]
  have e : a - p * (2 * m) * (a / (p * (2 * m))) = a + p * (2 * -(m * (a / (p * (2 * m))))) := by
    rw [Int.sub_eq_add_neg, Int.mul_assoc p, ← Int.mul_neg, Int.mul_assoc 2, ← Int.mul_neg]
  rw [e, Int.add_mul_ediv_left _ _ (by omega)]
  omega

theorem getLsbD_ofInt (a : Int) (i : Nat) (h : i < 64) :
    (BitVec.ofInt 64 a).getLsbD i = Spec.bit a i := by
  rw [BitVec.getLsbD, BitVec.toNat_ofInt, Spec.bit, Nat.testBit_eq_decide_div_mod_eq]
  rw [Bool.eq_iff_iff]
  simp only [decide_eq_true_eq, beq_iff_eq]
  have e3 : ((2 ^ 64 : Nat) : Int) = 2 ^ i * (2 * 2 ^ (63 - i)) := by
    have : (2 : Nat) ^ 64 = 2 ^ i * (2 * 2 ^ (63 - i)) := by
      rw [Nat.mul_comm 2, ← Nat.pow_succ, ← Nat.pow_add]; congr 1; omega
    rw [this]; simp
  have e2 : (((a % (2 ^ 64 : Nat)).toNat : Nat) : Int) = a % (2 ^ 64 : Nat) := by omega
  have hp : (2 : Int) ^ i > 0 := Int.pow_pos (by decide)
  have e4 := emod_div_bit a (2 ^ i) (2 ^ (63 - i)) hp
  rw [← e3, ← e2] at e4
  rw [← e4]
  generalize (a % (2 ^ 64 : Nat)).toNat = n
  have : ((n : Int) / 2 ^ i % 2) = ((n / 2 ^ i % 2 : Nat) : Int) := by simp
  rw [this]
  omega

theorem ofBits_congr {f g : Nat → Bool} (h : ∀ i, i < 64 → f i = g i) :
    Spec.ofBits f = Spec.ofBits g := by
  rw [Spec.ofBits, Spec.ofBits, h 63 (by omega)]
  congr 2
  refine List.map_congr_left fun i hi => ?_
  rw [h i (by have := List.mem_range.mp hi; omega)]

theorem ofBitVec_exact (x : BitVec 64) :
    (ofBitVec x).map Outcome.ok = some (Spec.exact (Spec.ofBits fun i => x.getLsbD i)) := by
  rw [ofBitVec, ← toInt_eq_ofBits]
  have h1 := BitVec.le_toInt x
  have h2 := BitVec.toInt_lt (x := x)
  rw [mk?_exact] <;> simp only [longMin, longMax] <;> simp at h1 h2 <;> omega

/-- **C08 (bit operators).** `<< >> & ^ |` yield the exact result if it is a `long` and report an
error for shift widths outside 0..63, for negative numbers shifted to the left and for overflowing
shifts; they never execute undefined behaviour. -/
theorem C08_bits (op : Op2) (a b : Long) :
    longCalculation2 op a b = some (Spec.bits op a.val b.val) := by
  obtain ⟨a, ha1, ha2⟩ := a
  obtain ⟨b, hb1, hb2⟩ := b
  simp only [longMin, longMax] at ha1 ha2 hb1 hb2
  cases op with
  | band =>
    simp only [longCalculation2, Spec.bits]
    rw [ofBitVec_exact]
    congr 2
    refine ofBits_congr fun i hi => ?_
    rw [BitVec.getLsbD_and, getLsbD_ofInt _ _ hi, getLsbD_ofInt _ _ hi]
  | bxor =>
    simp only [longCalculation2, Spec.bits]
    rw [ofBitVec_exact]
    congr 2
    refine ofBits_congr fun i hi => ?_
    rw [BitVec.getLsbD_xor, getLsbD_ofInt _ _ hi, getLsbD_ofInt _ _ hi]
  | bor =>
    simp only [longCalculation2, Spec.bits]
    rw [ofBitVec_exact]
    congr 2
    refine ofBits_congr fun i hi => ?_
    rw [BitVec.getLsbD_or, getLsbD_ofInt _ _ hi, getLsbD_ofInt _ _ hi]
  | shr =>
    simp only [longCalculation2, Spec.bits, longBit, ge_iff_le]
    split
    · rfl
    · rename_i h
      rw [Int.shiftRight_eq_div_pow]
      have hp : (2 : Nat) ^ b.toNat ≥ 1 := Nat.one_le_two_pow
      generalize hq : a / ((2 ^ b.toNat : Nat) : Int) = q
      have hq' : a / 2 ^ b.toNat = q := by rw [← hq]; simp
      rw [hq']
      have h1 := Int.emod_nonneg a (b := ((2 ^ b.toNat : Nat) : Int)) (by omega)
      have h2 := Int.mul_ediv_add_emod a ((2 ^ b.toNat : Nat) : Int)
      have h3 := Int.emod_lt_of_pos a (b := ((2 ^ b.toNat : Nat) : Int)) (by omega)
      rw [hq] at h2
      generalize a % ((2 ^ b.toNat : Nat) : Int) = r at *
      generalize (2 : Nat) ^ b.toNat = p at *
      have h4 : q ≥ -9223372036854775808 := by
        refine Decidable.byContradiction fun hc => ?_
        have : (p : Int) * q ≤ (p : Int) * (-9223372036854775809) :=
          Int.mul_le_mul_of_nonneg_left (by omega) (by omega)
        omega
      have h5 : q ≤ 9223372036854775807 := by
        refine Decidable.byContradiction fun hc => ?_
        have : (p : Int) * q ≥ (p : Int) * 9223372036854775808 :=
          Int.mul_le_mul_of_nonneg_left (by omega) (by omega)
        omega
      rw [mk?_exact] <;> simp only [longMin, longMax] <;> omega
  | shl =>
    simp only [longCalculation2, Spec.bits, longBit, ge_iff_le]
    split
    · rfl
    · split
      · rfl
      · rename_i hn h
        obtain ⟨n, rfl⟩ := Int.eq_ofNat_of_zero_le (Int.not_lt.mp hn)
        obtain ⟨w, rfl⟩ := Int.eq_ofNat_of_zero_le (show (0 : Int) ≤ b by omega)
        rw [toUnsigned_nat (by omega), toUnsigned_longMax, and_longMax, Int.toNat_natCast,
          Nat.shiftLeft_eq, Nat.shiftRight_eq_div_pow]
        have hm : n * 2 ^ w % 18446744073709551616 % 9223372036854775808
            = n * 2 ^ w % 9223372036854775808 := by omega
        rw [hm]
        have hp : (2 : Nat) ^ w ≥ 1 := Nat.one_le_two_pow
        have hc : ((n : Int) * 2 ^ w) = ((n * 2 ^ w : Nat) : Int) := by simp
        rw [hc]
        generalize (2 : Nat) ^ w = p at *
        by_cases hs : n * p < 9223372036854775808
        · rw [Nat.mod_eq_of_lt hs, Nat.mul_div_cancel _ hp, if_neg (by simp)]
          rw [mk?_exact] <;> simp only [longMin, longMax] <;> omega
        · rw [if_pos, exact_neg]
          · simp only [longMin, longMax]; omega
          · intro he
            have := Nat.div_mul_le_self (n * p % 9223372036854775808) p
            rw [he] at this; omega

/-- **C08 (comparisons).** A comparison yields 1 if it holds between the numbers, otherwise 0. -/
theorem C08_comparison (op : Cmp) (a b : Long) :
    (longComparison op a b).val = 1 ∧ Spec.compare op a.val b.val
      ∨ (longComparison op a b).val = 0 ∧ ¬ Spec.compare op a.val b.val := by
  cases op <;> simp only [longComparison, Spec.compare, Long.ofBool, decide_eq_true_eq] <;> split <;>
    simp_all [Long.one, Long.zero]

/-- **C08 (unary operators).** `-`, `++`, `--` and `~` yield the exact result or report an
overflow. -/
theorem C08_unary (a : Long) :
    longNegate a = some (Spec.exact (-a.val))
    ∧ longIncDec true a = some (Spec.exact (a.val + 1))
    ∧ longIncDec false a = some (Spec.exact (a.val - 1))
    ∧ (∃ r, longComplement a = some r ∧ r.val = -a.val - 1) := by
  obtain ⟨a, ha1, ha2⟩ := a
  simp only [longMin, longMax] at ha1 ha2
  refine ⟨?_, ?_, ?_, ?_⟩
  · simp only [longNegate]; split
    · rename_i h; rw [exact_neg]; simp only [longMin, longMax] at *; omega
    · rw [mk?_exact] <;> simp only [longMin, longMax] at * <;> omega
  · simp only [longIncDec, if_true]; split
    · rename_i h; rw [exact_neg]; simp only [longMin, longMax] at *; omega
    · rw [mk?_exact] <;> simp only [longMin, longMax] at * <;> omega
  · simp only [longIncDec, Bool.false_eq_true, if_false]; split
    · rename_i h; rw [exact_neg]; simp only [longMin, longMax] at *; omega
    · rw [mk?_exact] <;> simp only [longMin, longMax] at * <;> omega
  · simp only [longComplement, ofBitVec]
    have h1 : (~~~ BitVec.ofInt 64 a).toInt = -a - 1 := by
      rw [BitVec.toInt_not, BitVec.toNat_ofInt]
      have : ((2 ^ 64 : Nat) : Int) = 18446744073709551616 := by decide
      simp only [Int.bmod_def, this]
      omega
    rw [h1, mk?_pos (by simp only [longMin]; omega) (by simp only [longMax]; omega)]
    exact ⟨_, rfl, rfl⟩

end Yash.Arith
