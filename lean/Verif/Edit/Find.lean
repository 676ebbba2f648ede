import Verif.Edit.Props2
/-! # Looking for a character in the line -/
set_option autoImplicit false

namespace Yash.Edit
open Spec

theorem findForward_some (c : Char) : ∀ (l : List Char) (i n r : Nat), 0 < n → findForward c l i n = some r →
    i ≤ r ∧ l[r - i]? = some c ∧ (l.take (r - i + 1)).count c = n
  | [], i, n, r, hn, h => by simp [findForward] at h
  | d :: l, i, n, r, hn, h => by
    rw [findForward] at h
    split at h
    · rename_i hd
      split at h
      · cases h
        rw [Nat.sub_self]
        refine ⟨Nat.le_refl _, by rw [hd]; rfl, ?_⟩
        rw [hd]; simp; omega
      · obtain ⟨h1, h2, h3⟩ := findForward_some c l (i + 1) (n - 1) r (by omega) h
        rw [show r - i = (r - (i + 1)) + 1 by omega]
        refine ⟨by omega, h2, ?_⟩
        rw [List.take_succ_cons, hd, List.count_cons_self, h3]; omega
    · rename_i hd
      obtain ⟨h1, h2, h3⟩ := findForward_some c l (i + 1) n r hn h
      rw [show r - i = (r - (i + 1)) + 1 by omega]
      refine ⟨by omega, h2, ?_⟩
      rw [List.take_succ_cons, List.count_cons_of_ne hd, h3]

theorem findForward_none (c : Char) : ∀ (l : List Char) (i n : Nat), 0 < n → findForward c l i n = none → l.count c < n
  | [], i, n, hn, h => by simpa using hn
  | d :: l, i, n, hn, h => by
    rw [findForward] at h
    split at h
    · rename_i hd
      split at h
      · cases h
      · have := findForward_none c l (i + 1) (n - 1) (by omega) h
        rw [hd, List.count_cons_self]; omega
    · rename_i hd
      rw [List.count_cons_of_ne hd]
      exact findForward_none c l (i + 1) n hn h

theorem count_drop_succ (c : Char) (s : List Char) (q i : Nat) (h : q ≤ i) (hi : i < s.length) :
    ((s.drop q).take (i + 1 - q)).count c = ((s.drop q).take (i - q)).count c + (if s[i]? = some c then 1 else 0) := by
  rw [show i + 1 - q = (i - q) + 1 by omega, List.take_succ_eq_append_getElem (by rw [List.length_drop]; omega), List.count_append, List.getElem_drop]
  have : q + (i - q) = i := by omega
  simp only [this]
  rw [List.getElem?_eq_getElem hi]
  by_cases hc : s[i] = c
  · simp [hc]
  · simp [hc]

theorem findBackward_some (c : Char) (s : List Char) : ∀ (i n r : Nat), i ≤ s.length → 0 < n → findBackward c s i n = some r →
    r < i ∧ s[r]? = some c ∧ ((s.drop r).take (i - r)).count c = n
  | 0, n, r, hi, hn, h => by simp [findBackward] at h
  | i + 1, n, r, hi, hn, h => by
    rw [findBackward] at h
    split at h
    · rename_i hd
      split at h
      · cases h
        refine ⟨by omega, hd, ?_⟩
        rw [count_drop_succ c s i i (by omega) (by omega), if_pos hd]
        simp; omega
      · obtain ⟨h1, h2, h3⟩ := findBackward_some c s i (n - 1) r (by omega) (by omega) h
        refine ⟨by omega, h2, ?_⟩
        rw [count_drop_succ c s r i (by omega) (by omega), if_pos hd, h3]; omega
    · rename_i hd
      obtain ⟨h1, h2, h3⟩ := findBackward_some c s i n r (by omega) hn h
      refine ⟨by omega, h2, ?_⟩
      rw [count_drop_succ c s r i (by omega) (by omega), if_neg hd, h3]; omega

theorem findBackward_none (c : Char) (s : List Char) : ∀ (i n : Nat), i ≤ s.length → 0 < n → findBackward c s i n = none → (s.take i).count c < n
  | 0, n, hi, hn, h => by simpa using hn
  | i + 1, n, hi, hn, h => by
    have hcnt := count_drop_succ c s 0 i (by omega) (by omega)
    simp only [Nat.sub_zero, List.drop_zero] at hcnt
    rw [findBackward] at h
    split at h
    · rename_i hd
      split at h
      · cases h
      · have := findBackward_none c s i (n - 1) (by omega) (by omega) h
        rw [hcnt, if_pos hd]; omega
    · rename_i hd
      rw [hcnt, if_neg hd]
      exact findBackward_none c s i n (by omega) hn h

/-- What is found is the occurrence that was looked for. -/
theorem findNth_some {c : Char} {n : Int} {st : St} (hi : st.idx ≤ st.buf.length) (hn : n ≠ 0) {q : Nat} (h : findNth c n st = some q) :
    Occurs c st.buf st.idx n q := by
  rw [findNth, if_neg hn] at h
  split at h
  · cases h
  · split at h
    · obtain ⟨h1, h2, h3⟩ := findForward_some c _ _ _ _ (by omega) h
      rw [List.getElem?_drop, show st.idx + 1 + (q - (st.idx + 1)) = q by omega] at h2
      refine ⟨h2, Or.inl ⟨by omega, by omega, ?_⟩⟩
      rw [show q - st.idx = q - (st.idx + 1) + 1 by omega, h3]; omega
    · obtain ⟨h1, h2, h3⟩ := findBackward_some c _ _ _ _ hi (by omega) h
      exact ⟨h2, Or.inr ⟨by omega, h1, by rw [h3]; omega⟩⟩

/-- If nothing is found, there is none. -/
theorem findNth_none {c : Char} {n : Int} {st : St} (hi : st.idx ≤ st.buf.length) (hn : n ≠ 0) (hc : c ≠ '\x00') (h : findNth c n st = none) (q : Nat) :
    ¬Occurs c st.buf st.idx n q := by
  rw [findNth, if_neg hn, if_neg hc] at h
  rintro ⟨ho, hx⟩
  split at h
  · have := findForward_none c _ _ _ (by omega) h
    rcases hx with ⟨-, h2, h3⟩ | ⟨h1, -, -⟩
    · have h4 := (List.take_sublist (q - st.idx) (st.buf.drop (st.idx + 1))).count_le c
      omega
    · omega
  · have := findBackward_none c _ _ _ hi (by omega) h
    rcases hx with ⟨h1, -, -⟩ | ⟨-, h2, h3⟩
    · omega
    · have h4 : ((st.buf.drop q).take (st.idx - q)).count c ≤ (st.buf.take st.idx).count c := by
        rw [show (st.buf.drop q).take (st.idx - q) = (st.buf.take st.idx).drop q by rw [List.drop_take]]
        exact (List.drop_sublist _ _).count_le c
      omega

/-- Where the cursor goes. -/
def stop (till : Bool) (n : Int) (q : Nat) : Nat := if till then (if 0 < n then q - 1 else q + 1) else q

theorem execFind_goes {E : Env} {c : Char} {n : Int} {till : Bool} {st s1 : St} (hi : st.idx ≤ st.buf.length) (hn : n ≠ 0) (hc : c ≠ '\x00')
    (he : execFind E c n till st = some s1) :
    (∃ q, Occurs c st.buf st.idx n q ∧ execMotion E (stop till n q) (decide (stop till n q ≥ st.idx)) (saveFind { st with mode := st.saveMode }) = some s1) ∨
      (∀ q, ¬Occurs c st.buf st.idx n q) ∧ s1 = alert (saveFind { st with mode := st.saveMode }) := by
  have hs : ∃ l, saveFind { st with mode := st.saveMode } = { st with mode := st.saveMode, lastFind := l } := by
    rw [saveFind]; split <;> exact ⟨_, rfl⟩
  obtain ⟨l, hl⟩ := hs
  rw [execFind] at he
  rw [hl] at he ⊢
  cases hf : findNth c n { st with mode := st.saveMode, lastFind := l } with
  | none =>
    rw [hf] at he
    exact Or.inr ⟨fun q => findNth_none (st := { st with mode := st.saveMode, lastFind := l }) hi hn hc hf q, (Option.some.inj he).symm⟩
  | some q =>
    rw [hf] at he
    have ho := findNth_some (st := { st with mode := st.saveMode, lastFind := l }) hi hn hf
    have hq : q < st.buf.length := by
      have := ho.1
      simp only at this
      exact (List.getElem?_eq_some_iff.1 this).1
    refine Or.inl ⟨q, ho, ?_⟩
    cases till with
    | false => exact he
    | true =>
      simp only [if_true] at he
      rcases ho.2 with ⟨h1, h2, -⟩ | ⟨h1, h2, -⟩
      · have h2 : st.idx < q := h2
        rw [if_pos (by omega), if_neg (by omega)] at he
        simpa only [stop, if_true, if_pos h1] using he
      · have h2 : q < st.idx := h2
        rw [if_neg (by omega), if_neg (by omega)] at he
        simpa only [stop, if_true, if_neg (show ¬0 < n by omega)] using he

theorem clamp_neg (r : Int) : (if -r < -countMax then -countMax else if -r > countMax then countMax else -r) =
    -(if r < -countMax then -countMax else if r > countMax then countMax else r) := by
  have : 0 < countMax := by decide
  generalize countMax = m at *
  by_cases h1 : r < -m
  · rw [if_pos h1, if_neg (by omega), if_pos (by omega), Int.neg_neg]
  · rw [if_neg h1]
    by_cases h2 : r > m
    · rw [if_pos h2, if_pos (by omega)]
    · rw [if_neg h2, if_neg (by omega), if_neg (by omega)]

theorem getCount_neg {a : Arg} (h : a.sign = 0 ∨ (a.sign = 1 ∨ a.sign = -1) ∧ a.abs ≠ 0) :
    getCount (if a.sign = 0 then { a with sign := -1, abs := 1 } else { a with sign := if a.sign ≥ 0 then -1 else 1 }) 1 = -getCount a 1 := by
  obtain ⟨sg, ab, mu, ch, mo⟩ := a
  dsimp only at h
  rcases h with rfl | ⟨rfl | rfl, h'⟩
  · simp only [getCount, if_true]
    rw [← clamp_neg]
    simp
  · simp only [getCount]
    rw [← clamp_neg]
    simp [h', Int.neg_mul]
  · simp only [getCount]
    rw [← clamp_neg]
    simp [h', Int.neg_mul]

theorem charFunc_find {E : Env} {f : CharCmd} (hf : f ≠ .viReplaceChar) {till : Bool} (ht : till = true ↔ f = .tillChar ∨ f = .tillCharRev) (c : Char) (st : St) :
    charFunc E f c st = execFind E c (if f = .findChar ∨ f = .tillChar then getCount st.arg 1 else -getCount st.arg 1) till st := by
  cases f <;> cases till <;> simp_all [charFunc]

/-- What a command that looks for a character executes. -/
theorem seeks_exec {E : Env} {st : St} {cmd : Cmd} {d c : Char} {n : Int} {till : Bool} (hs : Seeks st cmd d c n till) :
    ∃ x a, exec E cmd d { st with cur := some (cmd, d) } = execFind E c n till { st with cur := some x, arg := a } ∧
      a.motion = st.arg.motion ∧ Careful st cmd ∧ Finding { st with cur := some x, arg := a } := by
  obtain ⟨f, hs, hf, ht⟩ := hs
  rcases hs with ⟨rfl, ha, rfl, rfl⟩ | ⟨rfl, hl, rfl⟩ | ⟨rfl, hl, rfl, hz⟩
  · refine ⟨(.charFunc f, c), st.arg, ?_, rfl, trivial, ⟨_, _, rfl, Or.inr (Or.inr (Or.inr ⟨f, rfl, hf⟩))⟩⟩
    show base E .expectChar c _ = _
    simp only [base, ha]
    rw [charFunc_find hf ht]
  · refine ⟨(.refind, d), st.arg, ?_, rfl, trivial, ⟨_, _, rfl, Or.inl rfl⟩⟩
    show base E .refind d _ = _
    simp only [base, hl]
    rw [charFunc_find hf ht]
  · refine ⟨(.refindRev, d), if st.arg.sign = 0 then { st.arg with sign := -1, abs := 1 } else { st.arg with sign := if st.arg.sign ≥ 0 then -1 else 1 },
      ?_, by split <;> rfl, trivial, ⟨_, _, rfl, Or.inr (Or.inl rfl)⟩⟩
    show base E .refindRev d _ = _
    simp only [base, hl]
    rw [charFunc_find hf ht]
    dsimp only
    rw [getCount_neg hz, Int.neg_neg]
end Yash.Edit
