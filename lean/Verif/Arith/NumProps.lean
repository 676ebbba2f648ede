import Verif.Arith.Model
import Verif.Arith.NumSpec
/-!
# Integer constants are read and written exactly (C36)
-/
set_option autoImplicit false

namespace Yash.Arith

open Spec (Digit Digits Constant Signed Canonical)

theorem digitValue_some {c : Char} {d : Nat} : digitValue c = some d ↔ Digit 16 c d := by
  have key : ∀ d : Fin 16, digitValue ("0123456789abcdef".toList[d.val]?.getD 'z') = some d.val
      ∧ digitValue ("0123456789ABCDEF".toList[d.val]?.getD 'z') = some d.val := by decide
  constructor
  · intro h
    unfold digitValue at h
    have tn : ∀ x : Char, ∀ n : Nat, x.toNat = n → x = Char.ofNat n := by
      intro x n hx; rw [← hx]; exact (Char.ofNat_toNat x).symm
    split at h
    · rename_i hc
      have h1 : 48 ≤ c.toNat := hc.1
      have h2 : c.toNat ≤ 57 := hc.2
      simp only [Option.some.injEq, show '0'.toNat = 48 from rfl] at h
      have hc : c = Char.ofNat (d + 48) := tn c _ (by omega)
      have hd : d < 10 := by omega
      subst hc
      clear h h1 h2
      have : ∀ d : Fin 10, Digit 16 (Char.ofNat (d.val + 48)) d.val := by
        simp only [Digit]; decide
      exact this ⟨d, hd⟩
    · split at h
      · rename_i hc
        have h1 : 97 ≤ c.toNat := hc.1
        have h2 : c.toNat ≤ 102 := hc.2
        simp only [Option.some.injEq, show 'a'.toNat = 97 from rfl] at h
        have hc : c = Char.ofNat (d - 10 + 97) := tn c _ (by omega)
        have hd : d - 10 < 6 := by omega
        have hd' : d = d - 10 + 10 := by omega
        rw [hc]
        generalize d - 10 = k at *
        subst hd'
        have : ∀ d : Fin 6, Digit 16 (Char.ofNat (d.val + 97)) (d.val + 10) := by
          simp only [Digit]; decide
        exact this ⟨k, hd⟩
      · split at h
        · rename_i hc
          have h1 : 65 ≤ c.toNat := hc.1
          have h2 : c.toNat ≤ 70 := hc.2
          simp only [Option.some.injEq, show 'A'.toNat = 65 from rfl] at h
          have hc : c = Char.ofNat (d - 10 + 65) := tn c _ (by omega)
          have hd : d - 10 < 6 := by omega
          have hd' : d = d - 10 + 10 := by omega
          rw [hc]
          generalize d - 10 = k at *
          subst hd'
          have : ∀ d : Fin 6, Digit 16 (Char.ofNat (d.val + 65)) (d.val + 10) := by
            simp only [Digit]; decide
          exact this ⟨k, hd⟩
        · cases h
  · rintro ⟨hd, h | h⟩
    · have := (key ⟨d, hd⟩).1
      rw [h] at this; exact this
    · have := (key ⟨d, hd⟩).2
      rw [h] at this; exact this

theorem digit_base {base : Nat} (hb : base ≤ 16) {c : Char} {d : Nat} :
    Digit base c d ↔ digitValue c = some d ∧ d < base := by
  rw [digitValue_some]
  constructor
  · rintro ⟨h1, h2⟩; exact ⟨⟨by omega, h2⟩, h1⟩
  · rintro ⟨h1, h2⟩; exact ⟨h2, h1.2⟩

theorem digitsValue_some {base : Nat} (hb : base ≤ 16) (cs : List Char) (acc n : Nat) :
    digitsValue base acc cs = some n ↔ ∃ m, Digits base cs m ∧ n = acc * base ^ cs.length + m := by
  induction cs generalizing acc n with
  | nil =>
    simp only [digitsValue, Option.some.injEq, List.length_nil, Nat.pow_zero, Nat.mul_one]
    constructor
    · intro h; exact ⟨0, .nil, by omega⟩
    · rintro ⟨m, h, rfl⟩; cases h; rfl
  | cons c cs ih =>
    simp only [digitsValue]
    cases hd : digitValue c with
    | none =>
      simp only [reduceCtorEq, false_iff]
      rintro ⟨m, h, _⟩
      cases h with
      | cons h _ => rw [digit_base hb, hd] at h; simp at h
    | some d =>
      dsimp only
      have e : ∀ m, (acc * base + d) * base ^ cs.length + m
          = acc * base ^ (cs.length + 1) + (d * base ^ cs.length + m) := by
        intro m
        rw [Nat.add_mul, Nat.pow_succ, Nat.mul_assoc, Nat.mul_comm base (base ^ cs.length)]
        omega
      split
      · rename_i hlt
        rw [ih]
        constructor
        · rintro ⟨m, h, rfl⟩
          refine ⟨d * base ^ cs.length + m, .cons ((digit_base hb).2 ⟨hd, hlt⟩) h, ?_⟩
          rw [e]; rfl
        · rintro ⟨m, h, rfl⟩
          cases h with
          | @cons _ d' n' _ h1 h2 =>
            rw [digit_base hb, hd] at h1
            obtain ⟨h1, _⟩ := h1
            cases h1
            exact ⟨_, h2, by rw [e]; rfl⟩
      · rename_i hlt
        simp only [reduceCtorEq, false_iff]
        rintro ⟨m, h, _⟩
        cases h with
        | cons h _ =>
          rw [digit_base hb, hd] at h
          obtain ⟨h1, h2⟩ := h
          cases h1; exact hlt h2

theorem digits_zero_cons {base : Nat} (hb : base ≤ 16) (h1 : 1 ≤ base) {cs : List Char} {n : Nat} :
    Digits base ('0' :: cs) n ↔ Digits base cs n := by
  have z : ∀ d, Digit base '0' d ↔ d = 0 := by
    intro d
    rw [digit_base hb, show digitValue '0' = some 0 from by decide]
    constructor
    · rintro ⟨h, _⟩; cases h; rfl
    · rintro rfl; exact ⟨rfl, h1⟩
  constructor
  · intro h
    cases h with
    | cons h1 h2 => rw [z] at h1; subst h1; simpa using h2
  · intro h
    have := Digits.cons ((z 0).2 rfl) h
    simpa using this

theorem constant_iff (s : List Char) (n : Nat) :
    Constant s n ↔ (wcstolPrefix s).2 ≠ [] ∧
      digitsValue (wcstolPrefix s).1 0 (wcstolPrefix s).2 = some n := by
  have dv : ∀ b, b ≤ 16 → ∀ (cs : List Char) n, digitsValue b 0 cs = some n ↔ Digits b cs n := by
    intro b hb cs n
    rw [digitsValue_some hb]; simp
  unfold wcstolPrefix
  split
  · rename_i x h t
    split
    · rename_i hx
      dsimp only
      rw [dv 16 (by omega)]
      constructor
      · intro hc
        refine ⟨by simp, ?_⟩
        cases hc with
        | decimal h _ => exact absurd rfl h
        | octal hd =>
          cases hd with
          | cons hd _ =>
            rw [digit_base (by omega)] at hd
            rcases hx.1 with rfl | rfl
            · rw [show digitValue 'x' = none from by decide] at hd; cases hd.1
            · rw [show digitValue 'X' = none from by decide] at hd; cases hd.1
        | hexadecimal _ _ hd => exact hd
      · rintro ⟨_, hd⟩
        exact .hexadecimal hx.1 (by simp) hd
    · rename_i hx
      dsimp only
      rw [dv 8 (by omega), digits_zero_cons (by omega) (by omega)]
      constructor
      · intro hc
        refine ⟨by simp, ?_⟩
        cases hc with
        | decimal h _ => exact absurd rfl h
        | octal hd => exact hd
        | hexadecimal hx' _ hd =>
          refine absurd ⟨hx', ?_⟩ hx
          cases hd with
          | cons hd _ => rw [((digit_base (by omega)).1 hd).1]; rfl
      · rintro ⟨_, hd⟩; exact .octal hd
  · rename_i t hns
    dsimp only
    rw [dv 8 (by omega), digits_zero_cons (by omega) (by omega)]
    constructor
    · intro hc
      refine ⟨by simp, ?_⟩
      cases hc with
      | decimal h _ => exact absurd rfl h
      | octal hd => exact hd
      | hexadecimal hx' hne hd =>
        cases hd with
        | nil => exact absurd rfl hne
        | cons _ _ => exact absurd rfl (hns _ _ _)
    · rintro ⟨_, hd⟩; exact .octal hd
  · rename_i h1 h2
    dsimp only
    rw [dv 10 (by omega)]
    constructor
    · intro hc
      cases hc with
      | decimal h hd => exact ⟨by simp, hd⟩
      | octal hd => exact absurd rfl (h2 _)
      | hexadecimal hx' hne hd => exact absurd rfl (h2 _)
    · rintro ⟨hne, hd⟩
      cases s with
      | nil => exact absurd rfl hne
      | cons c cs => exact .decimal (fun h => h2 cs (by rw [h])) hd

/-- The sign handling of `xwcstol`. -/
theorem constant_head {s : List Char} {n : Nat} (h : Constant s n) :
    ∃ c cs d, s = c :: cs ∧ Digit 10 c d := by
  cases h with
  | decimal _ hd => cases hd with | cons h _ => exact ⟨_, _, _, rfl, h⟩
  | octal _ => exact ⟨_, _, 0, rfl, by simp [Digit]⟩
  | hexadecimal _ _ _ => exact ⟨_, _, 0, rfl, by simp [Digit]⟩

theorem mk?_some {n : Int} {r : Long} : mk? n = some r ↔ r.val = n := by
  unfold mk?
  constructor
  · intro h
    split at h
    · cases h; rfl
    · cases h
  · intro h
    subst h
    rw [dif_pos ⟨r.lo, r.hi⟩]

section
variable {D E : Type} (cfg : Cfg D E)

/-- White space contains no sign and no digit. -/
def SaneSpace : Prop :=
  ∀ c, cfg.isSpace c = true → c ≠ '+' ∧ c ≠ '-' ∧ ∀ d, ¬ Digit 10 c d

variable {cfg}

theorem signed_iff (s : List Char) (n : Int) :
    Signed s n ↔
      ∃ m, Constant (splitSign s).2 m ∧ n = if (splitSign s).1 then -(m : Int) else m := by
  have nd : ∀ d, ¬ Digit 10 '+' d ∧ ¬ Digit 10 '-' d := by
    intro d
    constructor <;>
    · rw [digit_base (by omega)]; rintro ⟨h, _⟩; revert h
      first
        | (rw [show digitValue '+' = none from by decide]; simp)
        | (rw [show digitValue '-' = none from by decide]; simp)
  constructor
  · intro h
    cases h with
    | plain h =>
      obtain ⟨c, cs, d, rfl, hd⟩ := constant_head h
      have h1 : c ≠ '+' := by rintro rfl; exact (nd d).1 hd
      have h2 : c ≠ '-' := by rintro rfl; exact (nd d).2 hd
      have e : splitSign (c :: cs) = (false, c :: cs) := by
        unfold splitSign
        split
        · rename_i heq; exact absurd (List.cons.inj heq).1 h2
        · rename_i heq; exact absurd (List.cons.inj heq).1 h1
        · rfl
      rw [e]
      exact ⟨_, h, rfl⟩
    | plus h => exact ⟨_, h, rfl⟩
    | minus h => exact ⟨_, h, rfl⟩
  · intro h
    unfold splitSign at h
    split at h
    · obtain ⟨m, hm, rfl⟩ := h; exact .minus hm
    · obtain ⟨m, hm, rfl⟩ := h; exact .plus hm
    · obtain ⟨m, hm, rfl⟩ := h; exact .plain hm

/-- **C36** (reading): a string is read as an integer exactly if it is an integer constant,
possibly after white space and with a sign, whose value is representable, and then it is read as
this value. -/
theorem C36_read (hsp : SaneSpace cfg) (s : List Char) (r : Long) :
    xwcstol cfg s = some r ↔
      ∃ w t, s = w ++ t ∧ (∀ c ∈ w, cfg.isSpace c = true) ∧ Signed t r.val := by
  have core : xwcstol cfg s = some r ↔ Signed (s.dropWhile cfg.isSpace) r.val := by
    rw [signed_iff]
    unfold xwcstol
    dsimp only
    generalize splitSign (s.dropWhile cfg.isSpace) = p
    obtain ⟨neg, t⟩ := p
    dsimp only
    have hc : ∀ n, _ := fun n => constant_iff t n
    split
    · rename_i he
      simp only [reduceCtorEq, false_iff]
      rintro ⟨m, hm, _⟩
      exact ((hc m).1 hm).1 he
    · rename_i hne
      cases hd : digitsValue (wcstolPrefix t).1 0 (wcstolPrefix t).2 with
      | none =>
        simp only [reduceCtorEq, false_iff]
        rintro ⟨m, hm, _⟩
        have := ((hc m).1 hm).2
        rw [hd] at this; cases this
      | some k =>
        dsimp only
        rw [mk?_some]
        constructor
        · intro h; exact ⟨k, (hc k).2 ⟨hne, hd⟩, h⟩
        · rintro ⟨m, hm, h⟩
          have := ((hc m).1 hm).2
          rw [hd] at this; cases this; exact h
  rw [core]
  constructor
  · intro h
    refine ⟨s.takeWhile cfg.isSpace, _, List.takeWhile_append_dropWhile.symm, ?_, h⟩
    intro c hc
    exact List.all_eq_true.1 (List.all_takeWhile (l := s)) c hc
  · rintro ⟨w, t, rfl, hw, ht⟩
    have hd : t.dropWhile cfg.isSpace = t := by
      have : ∃ c cs, t = c :: cs ∧ (c = '+' ∨ c = '-' ∨ ∃ d, Digit 10 c d) := by
        generalize r.val = z at ht
        cases ht with
        | plain h => obtain ⟨c, cs, d, rfl, hd⟩ := constant_head h; exact ⟨c, cs, rfl, .inr (.inr ⟨d, hd⟩)⟩
        | plus h => exact ⟨_, _, rfl, .inl rfl⟩
        | minus h => exact ⟨_, _, rfl, .inr (.inl rfl)⟩
      obtain ⟨c, cs, rfl, hc⟩ := this
      cases hcs : cfg.isSpace c with
      | false => simp [List.dropWhile, hcs]
      | true =>
        obtain ⟨h1, h2, h3⟩ := hsp c hcs
        rcases hc with rfl | rfl | ⟨d, hd⟩
        · exact absurd rfl h1
        · exact absurd rfl h2
        · exact absurd hd (h3 d)
    rw [List.dropWhile_append_of_pos hw, hd]
    exact ht

theorem digits_append {base : Nat} {a b : List Char} {m n : Nat} (ha : Digits base a m)
    (hb : Digits base b n) : Digits base (a ++ b) (m * base ^ b.length + n) := by
  induction ha with
  | nil => simpa using hb
  | @cons c d k cs h _ ih =>
    have := Digits.cons h ih
    rw [List.cons_append]
    have e : d * base ^ (cs ++ b).length + (k * base ^ b.length + n)
        = (d * base ^ cs.length + k) * base ^ b.length + n := by
      rw [List.length_append, Nat.pow_add, Nat.add_mul, Nat.mul_assoc]; omega
    rwa [e] at this

theorem digitChar_digit (d : Nat) (h : d < 10) : Digit 10 (Nat.digitChar d) d := by
  have : ∀ d : Fin 10, Digit 10 (Nat.digitChar d.val) d.val := by simp only [Digit]; decide
  exact this ⟨d, h⟩

theorem toDigits_digits (n : Nat) : Digits 10 (Nat.toDigits 10 n) n
    ∧ (n ≠ 0 → ∃ c cs, Nat.toDigits 10 n = c :: cs ∧ c ≠ '0') := by
  induction n using Nat.strongRecOn with
  | ind n ih =>
    by_cases h : n < 10
    · rw [Nat.toDigits_of_lt_base h]
      refine ⟨by simpa using Digits.cons (digitChar_digit n h) .nil, fun h0 => ⟨_, _, rfl, ?_⟩⟩
      have : ∀ d : Fin 10, d.val ≠ 0 → Nat.digitChar d.val ≠ '0' := by decide
      exact this ⟨n, h⟩ h0
    · rw [Nat.toDigits_of_base_le (by omega) (by omega)]
      obtain ⟨h1, h2⟩ := ih (n / 10) (by omega)
      constructor
      · have := digits_append h1 (Digits.cons (digitChar_digit (n % 10) (by omega)) .nil)
        have e : n / 10 * 10 ^ [(n % 10).digitChar].length + (n % 10 * 10 ^ ([] : List Char).length + 0) = n := by
          simp only [List.length_cons, List.length_nil]; omega
        rw [e] at this
        exact this
      · intro _
        obtain ⟨c, cs, e, hc⟩ := h2 (by omega)
        exact ⟨c, cs ++ [_], by rw [e]; rfl, hc⟩

/-- **C36** (writing): an integer is written as the shortest decimal constant denoting it. -/
theorem C36_write (n : Long) : Canonical (formatLong n) n.val := by
  unfold formatLong Canonical
  have h := toDigits_digits n.val.natAbs
  rcases Int.lt_trichotomy n.val 0 with hn | hn | hn
  · right; right
    obtain ⟨c, cs, e, hc⟩ := h.2 (by omega)
    rw [if_pos hn, e]
    refine ⟨hn, c, cs, rfl, hc, _, by rw [← e]; exact h.1, by omega⟩
  · left
    rw [hn]; exact ⟨rfl, by decide⟩
  · right; left
    obtain ⟨c, cs, e, hc⟩ := h.2 (by omega)
    rw [if_neg (by omega)]
    exact ⟨hn, c, cs, e, hc, _, h.1, by omega⟩

theorem canonical_signed {s : List Char} {n : Int} (h : Canonical s n) : Signed s n := by
  rcases h with ⟨rfl, rfl⟩ | ⟨_, c, cs, rfl, hc, m, hm, rfl⟩ | ⟨_, c, cs, rfl, hc, m, hm, rfl⟩
  · exact .plain (.octal .nil)
  · exact .plain (.decimal hc hm)
  · exact .minus (.decimal hc hm)

/-- **C36** (round trip): the value that arithmetic expansion stores in a variable is read back
unchanged. -/
theorem C36_roundtrip (hsp : SaneSpace cfg) (n : Long) : xwcstol cfg (formatLong n) = some n := by
  rw [C36_read hsp]
  exact ⟨[], _, rfl, by simp, canonical_signed (C36_write n)⟩

end

/-! ### Examples -/

example : Signed "-0x1F".toList (-31) := by
  have h : Digits 16 "1F".toList 31 := .cons (d := 1) ⟨by omega, .inl rfl⟩ (.cons (d := 15) ⟨by omega, .inr rfl⟩ .nil)
  exact .minus (.hexadecimal (.inl rfl) (by simp) h)

example : Signed "010".toList 8 := by
  have h : Digits 8 "10".toList 8 := .cons (d := 1) ⟨by omega, .inl rfl⟩ (.cons (d := 0) ⟨by omega, .inl rfl⟩ .nil)
  exact .plain (.octal h)

example : formatLong ⟨-120, by decide, by decide⟩ = "-120".toList := by decide

end Yash.Arith
