import Verif.Expand.Brace
import Verif.Expand.BraceSpec
import Verif.Util.ListLemmas
/-! # Numeric brace sequences: the loop is the progression (C17) -/
set_option autoImplicit false

namespace Yash.Expand

open Spec

theorem range_succ_map {α : Type} (f : Nat → α) (n : Nat) :
    (List.range (n + 1)).map f = f 0 :: (List.range n).map (fun i => f (i + 1)) := by
  rw [List.range_succ_eq_map]
  simp [Function.comp_def]

theorem isProgression_cons {a b d : Int} {vs : List Int} (h : IsProgression (a + d) b d vs)
    (hb : ¬ Beyond b d (a + d)) : IsProgression a b d (a :: vs) := by
  obtain ⟨n, h1, h2, h3⟩ := h
  have e : ∀ i : Nat, a + d * ((i + 1 : Nat) : Int) = a + d + d * (i : Int) := by
    intro i
    rw [Int.natCast_add, Int.mul_add]
    simp
    omega
  refine ⟨n + 1, ?_, ?_, ?_⟩
  · rw [range_succ_map, h1]
    simp only [e]
    simp
  · intro i hi hin
    obtain ⟨i, rfl⟩ := Nat.exists_eq_succ_of_ne_zero (by omega : i ≠ 0)
    rw [Nat.succ_eq_add_one, e]
    by_cases h0 : i = 0
    · subst h0; simpa using hb
    · exact h2 i (by omega) (by omega)
  · rw [e]; exact h3

theorem isProgression_single {a b d : Int} (hb : Beyond b d (a + d)) : IsProgression a b d [a] :=
  ⟨0, by simp, by intro i h1 h2; omega, by simpa using hb⟩

/-- The progression is unique. -/
theorem isProgression_unique {a b d : Int} {vs ws : List Int} (h1 : IsProgression a b d vs)
    (h2 : IsProgression a b d ws) : vs = ws := by
  obtain ⟨n, e1, p1, q1⟩ := h1
  obtain ⟨m, e2, p2, q2⟩ := h2
  have : n = m := by
    rcases Nat.lt_trichotomy n m with h | h | h
    · exact absurd q1 (p2 _ (by omega) (by omega))
    · exact h
    · exact absurd q2 (p1 _ (by omega) (by omega))
  subst this
  rw [e1, e2]

theorem mul_div_facts (x k : Nat) (hk : 0 < k) : k * (x / k) ≤ x ∧ x < k * (x / k + 1) := by
  have h1 := Nat.div_add_mod x k
  have h2 := Nat.mod_lt x hk
  rw [Nat.mul_add]
  omega

/-- `progression` is the progression. -/
theorem progression_isProgression {a b d : Int} (hd : d ≠ 0) :
    IsProgression a b d (progression a b d) := by
  by_cases hb : Beyond b d a
  · refine ⟨0, by simp [progression, hb], by intro i h1 h2; omega, ?_⟩
    simp only [Beyond] at *
    split at hb
    · rename_i hp; rw [if_pos hp]; simp; omega
    · rename_i hp; rw [if_neg hp]; simp; omega
  · refine ⟨(b - a).natAbs / d.natAbs, by simp [progression, hb], ?_, ?_⟩
    · intro i hi hin
      have hk : 0 < d.natAbs := by omega
      have hf := (mul_div_facts (b - a).natAbs d.natAbs hk).1
      have : d.natAbs * i ≤ (b - a).natAbs := Nat.le_trans (Nat.mul_le_mul_left _ hin) hf
      have hz : ((d.natAbs * i : Nat) : Int) ≤ ((b - a).natAbs : Int) := by exact_mod_cast this
      rw [Int.natCast_mul] at hz
      simp only [Beyond] at *
      split
      · rename_i hp
        rw [if_pos hp] at hb
        have e : ((d.natAbs : Nat) : Int) = d := by omega
        rw [e] at hz
        omega
      · rename_i hp
        rw [if_neg hp] at hb
        have e : ((d.natAbs : Nat) : Int) = -d := by omega
        rw [e, Int.neg_mul] at hz
        omega
    · have hk : 0 < d.natAbs := by omega
      have hf := (mul_div_facts (b - a).natAbs d.natAbs hk).2
      generalize (b - a).natAbs / d.natAbs + 1 = m at *
      have hz : ((b - a).natAbs : Int) < ((d.natAbs * m : Nat) : Int) := by exact_mod_cast hf
      rw [Int.natCast_mul] at hz
      simp only [Beyond] at *
      split
      · rename_i hp
        rw [if_pos hp] at hb
        have e : ((d.natAbs : Nat) : Int) = d := by omega
        rw [e] at hz
        omega
      · rename_i hp
        rw [if_neg hp] at hb
        have e : ((d.natAbs : Nat) : Int) = -d := by omega
        rw [e, Int.neg_mul] at hz
        omega

theorem seqLoop_isProgression {R : LongRange} (hR : R.Ok) {stop delta value : Int}
    (hs : R.lmin ≤ stop ∧ stop ≤ R.lmax) (hd : R.lmin ≤ delta ∧ delta ≤ R.lmax) (h0 : delta ≠ 0)
    (hv : R.lmin ≤ value ∧ value ≤ R.lmax) :
    ∃ vs, seqLoop R stop delta value = some vs ∧ IsProgression value stop delta vs := by
  have hneg := hR.neg
  have hpos := hR.pos
  fun_induction seqLoop R stop delta value with
  | case1 => contradiction
  | case2 value _ hp hc =>
    simp only [LongRange.chk] at hc
    split at hc
    · cases hc
    · exfalso; omega
  | case3 value _ hp m hc hm =>
    simp only [LongRange.chk] at hc
    split at hc
    · cases hc
      refine ⟨_, rfl, isProgression_single ?_⟩
      simp only [Beyond]; split <;> omega
    · cases hc
  | case4 value _ hp m hc hm hc2 =>
    simp only [LongRange.chk] at hc hc2
    split at hc
    · cases hc
      split at hc2
      · cases hc2
      · exfalso; omega
    · cases hc
  | case5 value _ hp m hc hm v' hc2 hle ih =>
    have hr : v' = value + delta ∧ R.lmin ≤ v' ∧ v' ≤ R.lmax := by
      simp only [LongRange.chk] at hc2
      split at hc2
      · cases hc2; omega
      · cases hc2
    obtain ⟨vs, h1, h2⟩ := ih hr.2
    rw [h1]
    refine ⟨_, rfl, ?_⟩
    rw [hr.1] at h2 hle
    refine isProgression_cons h2 ?_
    simp only [Beyond]; split <;> omega
  | case6 value _ hp m hc hm v' hc2 hle =>
    have hr : v' = value + delta := by
      simp only [LongRange.chk] at hc2
      split at hc2
      · cases hc2; omega
      · cases hc2
    refine ⟨_, rfl, isProgression_single ?_⟩
    simp only [Beyond]; split <;> omega
  | case7 value _ hp hc =>
    simp only [LongRange.chk] at hc
    split at hc
    · cases hc
    · exfalso; omega
  | case8 value _ hp m hc hm =>
    simp only [LongRange.chk] at hc
    split at hc
    · cases hc
      refine ⟨_, rfl, isProgression_single ?_⟩
      simp only [Beyond]; split <;> omega
    · cases hc
  | case9 value _ hp m hc hm hc2 =>
    simp only [LongRange.chk] at hc hc2
    split at hc
    · cases hc
      split at hc2
      · cases hc2
      · exfalso; omega
    · cases hc
  | case10 value _ hp m hc hm v' hc2 hle ih =>
    have hr : v' = value + delta ∧ R.lmin ≤ v' ∧ v' ≤ R.lmax := by
      simp only [LongRange.chk] at hc2
      split at hc2
      · cases hc2; omega
      · cases hc2
    obtain ⟨vs, h1, h2⟩ := ih hr.2
    rw [h1]
    refine ⟨_, rfl, ?_⟩
    rw [hr.1] at h2 hle
    refine isProgression_cons h2 ?_
    simp only [Beyond]; split <;> omega
  | case11 value _ hp m hc hm v' hc2 hle =>
    have hr : v' = value + delta := by
      simp only [LongRange.chk] at hc2
      split at hc2
      · cases hc2; omega
      · cases hc2
    refine ⟨_, rfl, isProgression_single ?_⟩
    simp only [Beyond]; split <;> omega

/-- **C17.** For all start, end and nonzero step values in the range of `long`, the loop terminates
without overflow and yields the start value followed by exactly the further values of the
progression that are not beyond the end. -/
theorem C17_sequence_is_progression {R : LongRange} (hR : R.Ok) {start stop delta : Int}
    (h1 : R.lmin ≤ start ∧ start ≤ R.lmax) (h2 : R.lmin ≤ stop ∧ stop ≤ R.lmax)
    (h3 : R.lmin ≤ delta ∧ delta ≤ R.lmax) (h0 : delta ≠ 0) :
    seqLoop R stop delta start = some (progression start stop delta) ∧
    IsProgression start stop delta (progression start stop delta) := by
  obtain ⟨vs, e, hp⟩ := seqLoop_isProgression hR h2 h3 h0 h1
  have := isProgression_unique hp (progression_isProgression h0)
  subst this
  exact ⟨e, hp⟩

/-- **C17**, the values as a set: unless the start is already beyond the end, they are all the
values `start + i * step` not beyond the end. -/
theorem C17_sequence_values {start stop delta : Int} (h0 : delta ≠ 0)
    (hb : ¬ Beyond stop delta start) (v : Int) :
    v ∈ progression start stop delta ↔
      ∃ i : Nat, v = start + delta * (i : Int) ∧ ¬ Beyond stop delta v := by
  obtain ⟨n, e, p, q⟩ := progression_isProgression (a := start) (b := stop) h0
  rw [e]
  simp only [List.mem_map, List.mem_range]
  constructor
  · rintro ⟨i, hi, rfl⟩
    refine ⟨i, rfl, ?_⟩
    by_cases hi0 : i = 0
    · subst hi0; simpa using hb
    · exact p i (by omega) (by omega)
  · rintro ⟨i, rfl, hnb⟩
    refine ⟨i, ?_, rfl⟩
    apply Classical.byContradiction
    intro hni
    apply hnb
    have : (n + 1 : Nat) ≤ i := by omega
    obtain ⟨k, rfl⟩ := Nat.exists_eq_add_of_le this
    rw [Int.natCast_add (n + 1) k, Int.mul_add]
    simp only [Beyond] at *
    split at q
    · rename_i hp
      rw [if_pos hp]
      have := Int.mul_nonneg (Int.le_of_lt hp) (Int.natCast_nonneg k)
      omega
    · rename_i hp
      rw [if_neg hp]
      have := Int.mul_nonneg (a := -delta) (by omega) (Int.natCast_nonneg k)
      rw [Int.neg_mul] at this
      omega

/-- 64-bit `long`. -/
def long64 : LongRange := { lmin := -9223372036854775808, lmax := 9223372036854775807 }

theorem long64_ok : long64.Ok := ⟨by decide, by decide⟩

example : progression 3 10 3 = [3, 6, 9] := by decide
example : progression 3 (-2) (-2) = [3, 1, -1] := by decide
/-- The start value is produced even if it is beyond the end: `{5..1..1}` is `5`. -/
example : progression 5 1 1 = [5] := by decide
example : seqLoop long64 9223372036854775807 2 9223372036854775804 =
    some [9223372036854775804, 9223372036854775806] := by
  simp [seqLoop, long64, LongRange.chk]

end Yash.Expand
