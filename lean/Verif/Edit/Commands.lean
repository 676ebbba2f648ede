import Verif.Edit.Targets
/-! # Each command keeps the invariant -/
set_option autoImplicit false

namespace Yash.Edit
open Spec

theorem findForward_lt (c : Char) : ∀ (l : List Char) (i n r : Nat), findForward c l i n = some r → r < i + l.length
  | [], i, n, r, h => by simp [findForward] at h
  | d :: l, i, n, r, h => by
    rw [findForward] at h
    split at h
    · split at h
      · cases h; simp
      · have := findForward_lt c l (i + 1) (n - 1) r h; simp only [List.length_cons]; omega
    · have := findForward_lt c l (i + 1) n r h; simp only [List.length_cons]; omega

theorem findBackward_lt (c : Char) (s : List Char) : ∀ (i n r : Nat), findBackward c s i n = some r → r < i
  | 0, n, r, h => by simp [findBackward] at h
  | i + 1, n, r, h => by
    rw [findBackward] at h
    split at h
    · split at h
      · cases h; omega
      · have := findBackward_lt c s i (n - 1) r h; omega
    · have := findBackward_lt c s i n r h; omega

theorem findNth_le (c : Char) (n : Int) (st : St) (h : st.idx ≤ st.buf.length) (r : Nat) (hr : findNth c n st = some r) : r ≤ st.buf.length := by
  rw [findNth] at hr
  split at hr
  · cases hr; exact h
  · split at hr
    · cases hr
    · split at hr
      · have := findForward_lt _ _ _ _ _ hr
        rw [List.length_drop] at this; omega
      · have := findBackward_lt _ _ _ _ _ hr; omega

/-- The current command is a search for a character, or one that repeats such a search. -/
def Finding (st : St) : Prop :=
  ∃ c d, st.cur = some (c, d) ∧ (c = .refind ∨ c = .refindRev ∨ c = .redo ∨ ∃ f, c = .charFunc f ∧ f ≠ .viReplaceChar)

theorem saveFind_ok {E : Env} {st : St} (h : Inv E st) (hf : Finding st) : ∃ l, saveFind st = { st with lastFind := l } ∧ Inv E (saveFind st) := by
  obtain ⟨c, d, hc, hf⟩ := hf
  rw [saveFind]
  split
  · exact ⟨_, rfl, h⟩
  · exact ⟨_, rfl, h⟩
  · exact ⟨_, rfl, h⟩
  · rename_i h1 h2 h3
    refine ⟨_, rfl, { h with find := ?_ }⟩
    intro c' d' hh
    simp only [hc, Option.some.injEq, Prod.mk.injEq] at hh
    rcases hf with rfl | rfl | rfl | hf
    · exact absurd hc (h1 d)
    · exact absurd hc (h2 d)
    · exact absurd hc (h3 d)
    · rw [← hh.1]; exact hf

/-- Only the mode and what is kept for repeating changed. -/
theorem Moved.shift {E : Env} {st s1 st' : St} (h : Moved E s1 st') (hz : zip s1 = zip st) (he : s1.entry = st.entry)
    (hb : s1.buf = st.buf) (hi : s1.idx = st.idx) (hm : s1.mainLen = st.mainLen) (hc : s1.cur = st.cur) (hl : s1.last = st.last) : Moved E st st' := by
  have hr : ∀ s, record s s1 = record s st := by
    intro s; simp only [record, hz, hb, activeLength, hi, hm]
  rcases h with (h | ⟨h, h1, h2, h3⟩) | ⟨h, ha⟩
  · exact Or.inl (Or.inl ⟨h.inv, h.entry.trans he, by rw [h.zip, hi]; exact hr _, h.cur.trans hc⟩)
  · exact Or.inl (Or.inr ⟨⟨h.inv, h.entry.trans he, h.zip.trans (hr _), h.cur.trans hc⟩, h1.trans hb, h2.trans hi, h3.trans hm⟩)
  · exact Or.inr ⟨⟨h.inv, h.entry.trans he, h.zip.trans (hr _), h.cur.trans hc⟩, by rw [Again, ← hc, ← hl]; exact ha⟩

theorem execFind_ok {E : Env} {st : St} (h : Inv E st) (hm : Main st) (hf : Finding st) (c : Char) (n : Int) (till : Bool) :
    ∃ st', execFind E c n till st = some st' ∧ Moved E st st' := by
  have h1 : Inv E { st with mode := st.saveMode } := h.of_same (by same) h.idx
  obtain ⟨l, hl, h2⟩ := saveFind_ok h1 (show Finding { st with mode := st.saveMode } from hf)
  rw [execFind]
  rw [hl] at h2 ⊢
  have hm2 : Main { st with mode := st.saveMode, lastFind := l } := hm
  have tr : ∀ {r : Option St}, (∃ st', r = some st' ∧ Moved E { st with mode := st.saveMode, lastFind := l } st') → ∃ st', r = some st' ∧ Moved E st st' := by
    rintro r ⟨st', e, m⟩
    exact ⟨st', e, m.shift rfl rfl rfl rfl rfl rfl rfl⟩
  apply tr
  split
  · exact ⟨_, rfl, .alert h2⟩
  · rename_i i hi
    have hle : i ≤ st.buf.length := findNth_le c n _ h2.idx i hi
    split
    · split
      · split
        · exact ⟨_, rfl, .alert h2⟩
        · exact Moved.exec h2 hm2 _ _ (by simp only; omega) (by simp)
      · split
        · exact ⟨_, rfl, .alert h2⟩
        · rename_i h3 h4
          simp only at h3 h4
          exact Moved.exec h2 hm2 _ _ (by simp only; omega) (by simp)
    · exact Moved.exec h2 hm2 _ _ hle (by simp)

theorem overwriteChars_ok (c : Char) : ∀ (n : Nat) (st : St), st.idx ≤ st.buf.length →
    Same (overwriteChars c n st) st ∧ (overwriteChars c n st).idx ≤ (overwriteChars c n st).buf.length ∧
      (overwriteChars c n st).mainLen = st.mainLen
  | 0, st, h => ⟨Same.refl _, h, rfl⟩
  | n + 1, st, h => by
    rw [overwriteChars]
    split
    · obtain ⟨h1, h2, h3⟩ := overwriteChars_ok c n { st with buf := st.buf.set st.idx c, idx := st.idx + 1 } (by simp only [List.length_set]; omega)
      exact ⟨h1.trans (by same), h2, h3⟩
    · exact ⟨Same.refl _, h, rfl⟩

theorem main_extend (st : St) : Main (extendMain st.idx st) := by
  intro m hm
  rw [(extend_buf _ _).2]
  rw [extendMain] at hm
  split at hm
  · rename_i h; rw [h] at hm; cases hm
  · rename_i m' h
    split at hm
    · simp only [Option.some.injEq] at hm; omega
    · rw [h] at hm; simp only [Option.some.injEq] at hm; omega

theorem viReplaceChar_ok {E : Env} {st : St} (h : Inv E st) (c : Char) : Out E none st (viReplaceChar c st) := by
  rw [viReplaceChar]
  obtain ⟨e, he, -⟩ := save_edit st
  have h1 := h.edited
  have h2 : Inv E { saveEdit st with mode := st.saveMode } := h1.of_same (by same) h1.idx
  have hz2 : zip { saveEdit st with mode := st.saveMode } = zip st := by rw [he]; rfl
  have hen2 : ({ saveEdit st with mode := st.saveMode } : St).entry = st.entry := by rw [he]
  have hcu2 : ({ saveEdit st with mode := st.saveMode } : St).cur = st.cur := by rw [he]
  generalize ({ saveEdit st with mode := st.saveMode } : St) = s2 at *
  rw [replaceChars]
  dsimp only
  have tr : ∀ {s : St}, Same s s2 → s.idx ≤ s.buf.length → Out E none st s := fun {s} hs hi =>
    ⟨h2.of_same hs hi, hs.entry.trans hen2, hs.toUndo.zip.trans hz2, hs.cur.trans hcu2⟩
  split
  · exact tr (by same) h2.idx
  · split
    · obtain ⟨h3, h4, h5⟩ := overwriteChars_ok c (getCount s2.arg 1).toNat s2 h2.idx
      generalize overwriteChars c (getCount s2.arg 1).toNat s2 = s3 at *
      have hc := clear_le (extendMain s3.idx s3) (by rw [(extend_buf _ _).1, (extend_buf _ _).2]; exact h4) (main_extend s3)
      have hs := (same_clear (extendMain s3.idx s3)).trans ((same_extend s3.idx s3).trans h3)
      have hi := (clear_idx (extendMain s3.idx s3)).1
      generalize clearPrediction (extendMain s3.idx s3) = s4 at *
      exact tr (Same.trans (by same) hs) (by simp only [resetState]; omega)
    · exact tr (by same) h2.idx

theorem charFunc_ok {E : Env} {st : St} (h : Inv E st) (hm : Main st) (f : CharCmd) (hf : f ≠ .viReplaceChar → Finding st) (c : Char) :
    ∃ st', charFunc E f c st = some st' ∧ (f ≠ .viReplaceChar ∧ Moved E st st' ∨ Out E none st st' ∧ f = .viReplaceChar) := by
  cases f with
  | viReplaceChar => exact ⟨_, rfl, Or.inr ⟨viReplaceChar_ok h c, rfl⟩⟩
  | findChar =>
    obtain ⟨st', e, m⟩ := execFind_ok h hm (hf (by simp)) c (getCount st.arg 1) false
    exact ⟨st', e, Or.inl ⟨by simp, m⟩⟩
  | findCharRev =>
    obtain ⟨st', e, m⟩ := execFind_ok h hm (hf (by simp)) c (-getCount st.arg 1) false
    exact ⟨st', e, Or.inl ⟨by simp, m⟩⟩
  | tillChar =>
    obtain ⟨st', e, m⟩ := execFind_ok h hm (hf (by simp)) c (getCount st.arg 1) true
    exact ⟨st', e, Or.inl ⟨by simp, m⟩⟩
  | tillCharRev =>
    obtain ⟨st', e, m⟩ := execFind_ok h hm (hf (by simp)) c (-getCount st.arg 1) true
    exact ⟨st', e, Or.inl ⟨by simp, m⟩⟩

theorem execOn_ok {E : Env} (hE : E.Ok) {st : St} (h : Inv E st) (hm : Main st) (f : Mec) (m : Motion) :
    ∃ st', execOn E f m st = some st' ∧ Moved E st st' := by
  rw [execOn]; split
  · exact ⟨_, rfl, .alert h⟩
  · obtain ⟨st', e, o⟩ := doMotion_ok hE (st := { st with arg := { st.arg with motion := f } }) (h.of_same (by same) h.idx) hm m
    exact ⟨st', e, o.shift rfl rfl rfl rfl rfl rfl rfl⟩

/-- The command on the whole line records it with the cursor at the beginning. -/
theorem execAll_ok {E : Env} {st : St} (h : Inv E st) (hm : Main st) : ∃ st', execAll E st = some st' ∧ Out E (some 0) st st' := by
  have h1 : Inv E { st with idx := 0 } := h.of_same (by same) (by simp)
  have hm1 : Main { st with idx := 0 } := fun m _ => Nat.zero_le m
  rw [execAll]
  simp only [doMotion, target, bind, Option.bind]
  obtain ⟨s1, e1, o1⟩ := execMotion_ok (E := E) h1 hm1 st.buf.length true (by simp) (by simp)
  have hr : repeatedBackspace st.buf.length { st with idx := 0 } = false := by
    simp only [repeatedBackspace]
    have : (st.buf.length + 1 == 0) = false := by simp
    simp [this]
  rw [hr] at o1
  simp only [Bool.false_eq_true, if_false] at o1
  rw [e1]
  have hact : activeLength { st with idx := 0 } = activeLength st := by
    simp only [activeLength]
    cases hl : st.mainLen with
    | none => rfl
    | some m =>
      have := hm m hl
      simp only
      split
      · rfl
      · split
        · omega
        · rw [if_neg (by omega)]
  have hrec : record (some 0) { st with idx := 0 } = record (some 0) st := by
    simp only [record, hact]; rfl
  have o2 : Out E (some 0) st s1 := ⟨o1.inv, o1.entry, o1.zip.trans hrec, o1.cur⟩
  refine ⟨_, rfl, ?_⟩
  split
  · rename_i hf
    simp only [Bool.and_eq_true, Bool.not_eq_true'] at hf
    -- the line is as long as it was
    have hlen : st.idx ≤ s1.buf.length := by
      rw [execMotion] at e1
      simp only [List.length_nil, Nat.not_lt_zero, Nat.lt_irrefl, or_self, if_false, hr, Nat.zero_le, if_true, Bool.false_eq_true] at e1
      obtain ⟨s0, e0, i0, oo, z0⟩ := maybeSave_ok h1
      rw [e0] at e1
      simp only [Option.bind_some, applyMec, oo.arg, hf.1.1, Bool.false_eq_true, if_false, Option.map_some, Option.some.injEq] at e1
      rw [← e1]
      have key : ∀ s : St, st.buf.length = s.buf.length → st.idx ≤ (resetState (if st.arg.motion.insert = true then setOverwriting false { s with mode := .viInsert } else s)).buf.length := by
        intro s hs
        have : (resetState (if st.arg.motion.insert = true then setOverwriting false { s with mode := .viInsert } else s)).buf = s.buf := by split <;> rfl
        rw [this, ← hs]; exact h.idx
      apply key
      dsimp only
      have hadd : ∀ (b : Bool) (r : List Char) (s : St), (if b then addToRing r s else s).buf = s.buf := by
        intro b r s
        cases b
        · rfl
        · simp only [if_true]; rw [addToRing.eq_def]; split <;> rfl
      split
      · rw [(extend_buf _ _).1]
        simp only [hadd, oo.buf]
        simp only [List.length_append, List.length_take, List.length_map, region_length _ _ _ (Nat.le_refl _), List.length_drop, Nat.lt_irrefl, decide_false, Bool.and_false, Bool.false_eq_true, if_false]
        omega
      · rw [hadd, oo.buf]
    exact ⟨o2.inv.of_same (by same) hlen, o2.entry, (Same.toUndo (by same)).zip.trans o2.zip, o2.cur⟩
  · exact o2

end Yash.Edit
