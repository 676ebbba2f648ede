import Verif.Sig.NameSpec
import Verif.Getopts.Lemmas
/-!
# Numerals and signal names
-/
set_option autoImplicit false

namespace Yash.Sig.Names
open Spec
open Yash.TestBuiltin (World isDigit xwcstoi wcstoimax digitsVal digitVal signOf)

theorem digitsVal_snoc (s : Str) (c : Char) (acc : Nat) : digitsVal (s ++ [c]) acc = 10 * digitsVal s acc + digitVal c := by
  induction s generalizing acc with
  | nil => simp [digitsVal]
  | cons d s ih => simp only [List.cons_append, digitsVal, ih]

theorem digit_char (d : Nat) (h : d < 10) : isDigit (Char.ofNat (48 + d)) = true ∧ digitVal (Char.ofNat (48 + d)) = d := by
  have : d = 0 ∨ d = 1 ∨ d = 2 ∨ d = 3 ∨ d = 4 ∨ d = 5 ∨ d = 6 ∨ d = 7 ∨ d = 8 ∨ d = 9 := by omega
  rcases this with h | h | h | h | h | h | h | h | h | h <;> subst h <;> decide

theorem char_digit {c : Char} (h : isDigit c = true) : ∃ d, d < 10 ∧ c = Char.ofNat (48 + d) := by
  simp only [isDigit, Bool.and_eq_true, decide_eq_true_eq] at h
  have h1 : 48 ≤ c.toNat := h.1
  have h2 : c.toNat ≤ 57 := h.2
  refine ⟨c.toNat - 48, by omega, ?_⟩
  rw [show 48 + (c.toNat - 48) = c.toNat by omega, Char.ofNat_toNat]

theorem numeral_iff (s : Str) (n : Nat) : Numeral s n ↔ s ≠ [] ∧ s.all isDigit = true ∧ digitsVal s 0 = n := by
  constructor
  · intro h
    induction h with
    | digit d hd => simp [digitsVal, digit_char d hd]
    | snoc s n d hd _ ih =>
      obtain ⟨h1, h2, h3⟩ := ih
      refine ⟨by simp, ?_, ?_⟩
      · rw [List.all_append, h2]; simp [digit_char d hd]
      · rw [digitsVal_snoc, h3, (digit_char d hd).2]
  · rintro ⟨h1, h2, rfl⟩
    have key : ∀ (k : Nat) (s : Str), s.length = k → s ≠ [] → s.all isDigit = true → Numeral s (digitsVal s 0) := by
      intro k
      induction k with
      | zero => intro s hk h; exact absurd (List.length_eq_zero_iff.1 hk) h
      | succ k ih =>
        intro s hk hne hd
        obtain ⟨t, c, rfl⟩ : ∃ t c, s = t ++ [c] := ⟨s.dropLast, s.getLast hne, (List.dropLast_concat_getLast hne).symm⟩
        simp only [List.all_append, List.all_cons, List.all_nil, Bool.and_true, Bool.and_eq_true] at hd
        obtain ⟨d, hd1, rfl⟩ := char_digit hd.2
        by_cases ht : t = []
        · subst ht
          simp only [List.nil_append, digitsVal, Nat.mul_zero, Nat.zero_add, (digit_char d hd1).2]
          exact .digit d hd1
        · rw [digitsVal_snoc, (digit_char d hd1).2]
          exact .snoc t _ d hd1 (ih t (by simpa using hk) ht hd.1)
    exact key _ s rfl h1 h2

theorem Spec.Numeral.unique {s : Str} {m n : Nat} (h : Numeral s m) (h' : Numeral s n) : m = n := by
  rw [← ((numeral_iff s m).1 h).2.2, ← ((numeral_iff s n).1 h').2.2]

theorem Spec.Numeral.head {s : Str} {n : Nat} (h : Numeral s n) : ∃ c r, s = c :: r ∧ isDigit c = true := by
  obtain ⟨h1, h2, _⟩ := (numeral_iff s n).1 h
  cases s with
  | nil => exact absurd rfl h1
  | cons c r =>
    simp only [List.all_cons, Bool.and_eq_true] at h2
    exact ⟨c, r, rfl, h2.1⟩

theorem isDigit_sign {c : Char} (h : isDigit c = true) : c ≠ '+' ∧ c ≠ '-' ∧ c ∈ "+-0123456789".toList := by
  obtain ⟨d, hd, rfl⟩ := char_digit h
  have : d = 0 ∨ d = 1 ∨ d = 2 ∨ d = 3 ∨ d = 4 ∨ d = 5 ∨ d = 6 ∨ d = 7 ∨ d = 8 ∨ d = 9 := by omega
  rcases this with h | h | h | h | h | h | h | h | h | h <;> subst h <;> decide

theorem xwcstoi_of {W : World} {s r : Str} {neg : Bool} (h : signOf (s.dropWhile W.isSpace) = (neg, r)) (n : Int) :
    xwcstoi W s = some n ↔ ∃ k, Numeral r k ∧ n = (if neg then -(k : Int) else k) ∧ -2147483648 ≤ n ∧ n ≤ 2147483647 := by
  unfold xwcstoi wcstoimax
  rw [h]
  dsimp only
  by_cases h1 : r = []
  · subst h1
    simp only [List.isEmpty_nil, if_true]
    simp [numeral_iff]
  · by_cases h2 : r.all isDigit = true
    · have h3 : r.isEmpty = false := by cases r with | nil => exact absurd rfl h1 | cons => rfl
      have h4 : Numeral r (digitsVal r 0) := (numeral_iff _ _).2 ⟨h1, h2, rfl⟩
      rw [h3, if_neg (by simp), if_pos h2]
      generalize hv : (if neg = true then -(digitsVal r 0 : Int) else (digitsVal r 0 : Int)) = v
      constructor
      · intro hh
        split at hh
        · cases hh
        · rename_i w hw
          split at hw
          · cases hw
          · cases hw
            split at hh
            · cases hh
            · cases hh
              exact ⟨_, h4, hv.symm, by omega, by omega⟩
      · rintro ⟨k, hk, rfl, h5, h6⟩
        rw [hk.unique h4] at h5 h6 ⊢
        rw [hv] at h5 h6 ⊢
        rw [if_neg (by omega)]
        dsimp only
        rw [if_neg (by omega)]
    · have h3 : r.isEmpty = false := by cases r with | nil => exact absurd rfl h1 | cons => rfl
      rw [h3, if_neg (by simp), if_neg h2]
      simp [numeral_iff, h2]

theorem dropWhile_sign {W : World} {c : Char} (r : Str) (h : c ∈ "+-0123456789".toList) :
    (c :: r).dropWhile W.isSpace = c :: r := by
  rw [List.dropWhile_cons, W.notSpace c h]
  simp

theorem x_digits {W : World} {c : Char} {r : Str} (h : isDigit c = true) (n : Int) :
    xwcstoi W (c :: r) = some n ↔ ∃ k : Nat, Numeral (c :: r) k ∧ n = k ∧ n ≤ 2147483647 := by
  obtain ⟨h1, h2, h3⟩ := isDigit_sign h
  have : signOf ((c :: r).dropWhile W.isSpace) = (false, c :: r) := by
    rw [dropWhile_sign r h3]
    unfold signOf
    split
    · rename_i heq; cases heq; exact absurd rfl h2
    · rename_i heq; cases heq; exact absurd rfl h1
    · rfl
  rw [xwcstoi_of this]
  constructor
  · rintro ⟨k, hk, hn, _, h5⟩; exact ⟨k, hk, by simpa using hn, h5⟩
  · rintro ⟨k, hk, rfl, h5⟩; exact ⟨k, hk, by simp, by omega, h5⟩

theorem x_plus {W : World} {r : Str} (n : Int) :
    xwcstoi W ('+' :: r) = some n ↔ ∃ k : Nat, Numeral r k ∧ n = k ∧ n ≤ 2147483647 := by
  rw [xwcstoi_of (neg := false) (r := r) (by rw [dropWhile_sign r (by decide)]; unfold signOf; rfl)]
  constructor
  · rintro ⟨k, hk, hn, _, h5⟩; exact ⟨k, hk, by simpa using hn, h5⟩
  · rintro ⟨k, hk, rfl, h5⟩; exact ⟨k, hk, by simp, by omega, h5⟩

theorem x_minus {W : World} {r : Str} (n : Int) :
    xwcstoi W ('-' :: r) = some n ↔ ∃ k : Nat, Numeral r k ∧ n = -(k : Int) ∧ -2147483648 ≤ n := by
  rw [xwcstoi_of (neg := true) (r := r) (by rw [dropWhile_sign r (by decide)]; unfold signOf; rfl)]
  constructor
  · rintro ⟨k, hk, hn, h5, _⟩; exact ⟨k, hk, by simpa using hn, h5⟩
  · rintro ⟨k, hk, rfl, h5⟩; exact ⟨k, hk, by simp, h5, by omega⟩

theorem decimal_numeral (n : Nat) : Numeral (decimal n) n := by
  obtain ⟨h1, h2, h3⟩ := Getopts.toDigits_scan n
  rw [numeral_iff]
  refine ⟨h3, ?_, ?_⟩
  · rw [List.all_eq_true]
    intro c hc
    have := h1 c hc
    simp [isDigit, this]
  · show digitsVal (Nat.toDigits 10 n) 0 = n
    have : ∀ (s : Str) (acc : Nat), digitsVal s acc = s.foldl (fun n c => n * 10 + (c.toNat - 48)) acc := by
      intro s
      induction s with
      | nil => intro acc; rfl
      | cons c s ih => intro acc; simp only [digitsVal, List.foldl_cons, ih, digitVal, Nat.mul_comm]
    rw [this, h2]

/-! ## Names -/

variable {W : World} {T : Table}

theorem rtmin_plus (r : Str) : rtminNumber W T ('+' :: r) =
    match xwcstoi W ('+' :: r) with
    | some num => if num < 0 then none else if num ≤ T.rtmax - T.rtmin then some (T.rtmin + num) else some (-1)
    | none => some (-1) := rfl

theorem rtmax_minus (r : Str) : rtmaxNumber W T ('-' :: r) =
    match xwcstoi W ('-' :: r) with
    | some num => if ¬ num < 0 then none else if T.rtmin - T.rtmax ≤ num then some (T.rtmax + num) else some (-1)
    | none => some (-1) := rfl

/-- Names without prefix. -/
theorem nameNumber_spec (hT : Table.Ok T) (s : Str) :
    (∀ n, Name T s n → nameNumber W T s = some n) ∧
    ((∃ z, Numeral z 0 ∧ s = "RTMAX-".toList ++ z) → nameNumber W T s = none) ∧
    (nameNumber W T s = none → ∃ z, Numeral z 0 ∧ s = "RTMAX-".toList ++ z) ∧
    (∀ n, nameNumber W T s = some n → n = -1 ∨ Name T s n) := by
  have htab : ∀ r, T.table.find? (fun x => x.2 == "RTM".toList ++ r) = none := by
    intro r
    rw [List.find?_eq_none]
    intro x hx hh
    have := (hT.prefixes x hx).2.2
    rw [beq_iff_eq] at hh
    rw [hh] at this
    exact this (List.prefix_append _ _)
  have hmin : ∀ r, nameNumber W T ("RTMIN".toList ++ r) = rtminNumber W T r := by
    intro r
    unfold nameNumber
    rw [show "RTMIN".toList ++ r = "RTM".toList ++ ("IN".toList ++ r) from rfl, htab]
    simp
  have hmax : ∀ r, nameNumber W T ("RTMAX".toList ++ r) = rtmaxNumber W T r := by
    intro r
    unfold nameNumber
    rw [show "RTMAX".toList ++ r = "RTM".toList ++ ("AX".toList ++ r) from rfl, htab]
    simp
  have hz : ∀ z, Numeral z 0 → nameNumber W T ("RTMAX-".toList ++ z) = none := by
    intro z h
    rw [show "RTMAX-".toList ++ z = "RTMAX".toList ++ ('-' :: z) from rfl, hmax]
    rw [rtmax_minus]
    rw [(x_minus 0).2 ⟨0, h, rfl, by omega⟩]
    simp
  refine ⟨?_, ?_, ?_, ?_⟩
  · intro n h
    cases h with
    | table _ _ h =>
      unfold nameNumber
      cases hf : T.table.find? (fun x => x.2 == s) with
      | none =>
        rw [List.find?_eq_none] at hf
        exact absurd (by simp) (hf _ h)
      | some x =>
        have h1 := List.find?_some hf
        have h2 := List.mem_of_find?_eq_some hf
        rw [beq_iff_eq] at h1
        have := hT.distinct x h2 _ h h1
        dsimp only at this ⊢
        rw [this]
    | rtmin => rw [show "RTMIN".toList = "RTMIN".toList ++ [] from rfl, hmin]; rfl
    | rtmax => rw [show "RTMAX".toList = "RTMAX".toList ++ [] from rfl, hmax]; rfl
    | above s k h h' =>
      rw [show "RTMIN+".toList ++ s = "RTMIN".toList ++ ('+' :: s) from rfl, hmin]
      rw [rtmin_plus]
      have := hT.rtmax
      have := hT.rtmin
      rw [(x_plus (W := W) k).2 ⟨k, h, rfl, by omega⟩]
      dsimp only
      rw [if_neg (by omega), if_pos (by omega)]
    | below s k h h0 h' =>
      rw [show "RTMAX-".toList ++ s = "RTMAX".toList ++ ('-' :: s) from rfl, hmax]
      rw [rtmax_minus]
      have := hT.rtmax
      have := hT.rtmin
      rw [(x_minus (W := W) (-k)).2 ⟨k, h, rfl, by omega⟩]
      dsimp only
      rw [if_neg (by omega), if_pos (by omega)]
      simp [Int.sub_eq_add_neg]
  · rintro ⟨z, h, rfl⟩; exact hz z h
  · intro h
    unfold nameNumber at h
    split at h
    · cases h
    · split at h
      · exfalso
        unfold rtminNumber at h
        split at h
        · cases h
        · split at h
          · rename_i num hx
            obtain ⟨k, _, rfl, _⟩ := (x_plus _).1 hx
            rw [if_neg (by omega)] at h
            split at h <;> cases h
          · cases h
        · cases h
      · split at h
        · rename_i h5
          have hs : s = "RTMAX".toList ++ s.drop 5 := by rw [← h5, List.take_append_drop]
          generalize s.drop 5 = r at h hs
          unfold rtmaxNumber at h
          split at h
          · cases h
          · split at h
            · rename_i _ r' _ num hx
              obtain ⟨k, hk, rfl, _⟩ := (x_minus _).1 hx
              by_cases h0 : k = 0
              · subst h0
                exact ⟨r', hk, hs⟩
              · rw [if_neg (by omega)] at h
                split at h <;> cases h
            · cases h
          · cases h
        · cases h
  · intro n h
    unfold nameNumber at h
    split at h
    · rename_i x hf
      cases h
      have h1 := List.find?_some hf
      have h2 := List.mem_of_find?_eq_some hf
      rw [beq_iff_eq] at h1
      exact Or.inr (.table _ _ (by rw [← h1]; exact h2))
    · split at h
      · rename_i h5
        have hs : s = "RTMIN".toList ++ s.drop 5 := by rw [← h5, List.take_append_drop]
        generalize s.drop 5 = r at h hs
        unfold rtminNumber at h
        split at h
        · cases h; rw [hs]; exact Or.inr .rtmin
        · split at h
          · rename_i _ r' _ num hx
            obtain ⟨k, hk, rfl, _⟩ := (x_plus _).1 hx
            rw [if_neg (by omega)] at h
            split at h
            · cases h; rw [hs]; exact Or.inr (.above r' k hk (by omega))
            · cases h; exact Or.inl rfl
          · cases h; exact Or.inl rfl
        · cases h; exact Or.inl rfl
      · split at h
        · rename_i h5
          have hs : s = "RTMAX".toList ++ s.drop 5 := by rw [← h5, List.take_append_drop]
          generalize s.drop 5 = r at h hs
          unfold rtmaxNumber at h
          split at h
          · cases h; rw [hs]; exact Or.inr .rtmax
          · split at h
            · rename_i _ r' _ num hx
              obtain ⟨k, hk, rfl, _⟩ := (x_minus _).1 hx
              by_cases h0 : k = 0
              · subst h0; simp at h
              · rw [if_neg (by omega)] at h
                split at h
                · cases h
                  rw [hs]
                  exact Or.inr (by
                    have := Name.below (T := T) r' k hk h0 (by omega)
                    rw [Int.sub_eq_add_neg] at this
                    exact this)
                · cases h; exact Or.inl rfl
            · cases h; exact Or.inl rfl
          · cases h; exact Or.inl rfl
        · cases h; exact Or.inl rfl

/-- The first characters of names. -/
theorem Spec.Name.facts (hT : Table.Ok T) {s : Str} {n : Int} (h : Name T s n) :
    (∃ c r, s = c :: r ∧ 'A' ≤ c ∧ c ≤ 'Z') ∧ s ≠ "EXIT".toList ∧ s.take 3 ≠ "SIG".toList := by
  cases h with
  | table _ _ h =>
    obtain ⟨c, r, h1, h2, h3⟩ := hT.first _ h
    obtain ⟨h4, h5, _⟩ := hT.prefixes _ h
    refine ⟨⟨c, r, h1, h2, h3⟩, ?_, ?_⟩
    · intro hh; exact h5 (by rw [← hh]; exact List.prefix_refl _)
    · intro hh; exact h4 (by rw [← hh]; exact List.take_prefix _ _)
  | rtmin => exact ⟨⟨'R', _, rfl, by decide, by decide⟩, by decide, by decide⟩
  | rtmax => exact ⟨⟨'R', _, rfl, by decide, by decide⟩, by decide, by decide⟩
  | above s k h h' => exact ⟨⟨'R', _, rfl, by decide, by decide⟩, by simp, by simp⟩
  | below s k h h0 h' => exact ⟨⟨'R', _, rfl, by decide, by decide⟩, by simp, by simp⟩

theorem letter_not_digit {c : Char} (h : 'A' ≤ c) : isDigit c = false := by
  have : ¬ c ≤ '9' := by
    intro h6
    have a : 65 ≤ c.toNat := h
    have b : c.toNat ≤ 57 := h6
    omega
  simp [isDigit, this]

theorem getSignalNumber_plain {s : Str} (h1 : ∃ c r, s = c :: r ∧ isDigit c = false) (h2 : s ≠ "EXIT".toList) :
    getSignalNumber W T s = nameNumber W T (if s.take 3 = "SIG".toList then s.drop 3 else s) := by
  obtain ⟨c, r, rfl, hc⟩ := h1
  unfold getSignalNumber
  rw [if_neg (by simp [hc]), if_neg h2]

/-- Everything about `get_signal_number`. -/
theorem number_spec (hT : Table.Ok T) (s : Str) :
    (∀ n, Denotes T s n → getSignalNumber W T s = some n) ∧ (Forbidden s → getSignalNumber W T s = none) ∧
    (getSignalNumber W T s = none → Forbidden s) ∧ (∀ n, getSignalNumber W T s = some n → n = -1 ∨ Denotes T s n) := by
  refine ⟨?_, ?_, ?_, ?_⟩
  · intro n h
    cases h with
    | exit => rfl
    | number _ k hk hv =>
      obtain ⟨c, r, rfl, hc⟩ := hk.head
      unfold getSignalNumber
      rw [if_pos (by simp [hc])]
      have hle : (k : Int) ≤ 2147483647 := by
        rcases hv with h | h | ⟨t, h⟩
        · omega
        · have := hT.rtmax; omega
        · exact (hT.number _ h).2.1
      unfold parseSignalNumber
      rw [(x_digits hc _).2 ⟨k, hk, rfl, hle⟩]
      dsimp only
      rw [if_neg (by omega)]
      rcases hv with h | h | ⟨t, h⟩
      · rw [if_pos h, h]
      · rw [if_neg (by have := hT.rtmin; omega), if_pos h]
      · have := (hT.number _ h).1
        rw [if_neg (by dsimp only at this; omega)]
        split
        · rfl
        · rw [if_pos (List.any_eq_true.2 ⟨_, h, by simp⟩)]
    | plain _ _ h =>
      obtain ⟨⟨c, r, h1, h1', _⟩, h2, h3⟩ := h.facts hT
      rw [getSignalNumber_plain ⟨c, r, h1, letter_not_digit h1'⟩ h2, if_neg h3, (nameNumber_spec hT s).1 n h]
    | sig s _ h =>
      rw [getSignalNumber_plain (s := "SIG".toList ++ s) ⟨'S', _, rfl, by decide⟩ (by simp), if_pos (by simp)]
      exact (nameNumber_spec hT s).1 n h
  · rintro ⟨z, h, rfl | rfl⟩
    · rw [getSignalNumber_plain (s := "RTMAX-".toList ++ z) ⟨'R', _, rfl, by decide⟩ (by simp), if_neg (by simp)]
      exact (nameNumber_spec hT _).2.1 ⟨z, h, rfl⟩
    · rw [getSignalNumber_plain (s := "SIGRTMAX-".toList ++ z) ⟨'S', _, rfl, by decide⟩ (by simp), if_pos (by simp)]
      exact (nameNumber_spec hT _).2.1 ⟨z, h, rfl⟩
  · intro h
    unfold getSignalNumber at h
    split at h
    · cases h
    · split at h
      · cases h
      · obtain ⟨z, hz, hs⟩ := (nameNumber_spec hT _).2.2.1 h
        split at hs
        · rename_i h3
          exact ⟨z, hz, Or.inr (by rw [← List.take_append_drop 3 s, h3, hs]; rfl)⟩
        · exact ⟨z, hz, Or.inl hs⟩
  · intro n h
    unfold getSignalNumber at h
    split at h
    · rename_i hd
      cases s with
      | nil => simp at hd
      | cons c r =>
        simp only [List.head?_cons, Option.map_some, Option.getD_some] at hd
        cases h
        unfold parseSignalNumber
        split
        · exact Or.inl rfl
        · rename_i n hx
          obtain ⟨k, hk, rfl, _⟩ := (x_digits hd n).1 hx
          rw [if_neg (by omega)]
          split
          · rename_i h0; exact Or.inr (by rw [show (0 : Int) = (k : Int) by omega]; exact .number _ k hk (Or.inl h0))
          · split
            · rename_i h1; exact Or.inr (.number _ k hk (Or.inr (Or.inl h1)))
            · split
              · rename_i h1
                obtain ⟨x, hx1, hx2⟩ := List.any_eq_true.1 h1
                rw [beq_iff_eq] at hx2
                exact Or.inr (.number _ k hk (Or.inr (Or.inr ⟨x.2, by rw [← hx2]; exact hx1⟩)))
              · exact Or.inl rfl
    · split at h
      · rename_i h1
        cases h
        rw [h1]
        exact Or.inr .exit
      · rcases (nameNumber_spec hT _).2.2.2 n h with h1 | h1
        · exact Or.inl h1
        · split at h1
          · rename_i h3
            right
            rw [← List.take_append_drop 3 s, h3]
            exact .sig _ _ h1
          · exact Or.inr (.plain _ _ h1)

/-- The name of a signal is one of its names. -/
theorem name_spec {n : Int} (hn : n ≠ 0) (hv : Valid T n) : Name T (getSignalName T n) n := by
  unfold getSignalName
  rw [if_neg hn]
  split
  · rename_i h
    split
    · rename_i h1; rw [h1]; exact .rtmin
    · split
      · rename_i h1; rw [h1]; exact .rtmax
      · split
        · have := Name.above (T := T) (decimal (n - T.rtmin)) (n - T.rtmin).toNat
            (by have := decimal_numeral (n - T.rtmin).toNat
                rw [Int.toNat_of_nonneg (by omega)] at this; exact this) (by omega)
          rw [show T.rtmin + ((n - T.rtmin).toNat : Int) = n by omega] at this
          exact this
        · have := Name.below (T := T) (decimal (T.rtmax - n)) (T.rtmax - n).toNat
            (by have := decimal_numeral (T.rtmax - n).toNat
                rw [Int.toNat_of_nonneg (by omega)] at this; exact this) (by omega) (by omega)
          rw [show T.rtmax - ((T.rtmax - n).toNat : Int) = n by omega] at this
          exact this
  · rename_i h
    rcases hv with h1 | h1 | ⟨s, h1⟩
    · exact absurd h1 hn
    · exact absurd h1 h
    · cases hf : T.table.find? (fun s => s.1 == n) with
      | none =>
        rw [List.find?_eq_none] at hf
        exact absurd (by simp) (hf _ h1)
      | some x =>
        have h2 := List.find?_some hf
        have h3 := List.mem_of_find?_eq_some hf
        rw [beq_iff_eq] at h2
        exact .table _ _ (by rw [← h2]; exact h3)

end Yash.Sig.Names
