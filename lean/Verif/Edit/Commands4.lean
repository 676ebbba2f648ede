import Verif.Edit.Commands3
/-! # Each command keeps the invariant: the rest -/
set_option autoImplicit false

namespace Yash.Edit
open Spec

theorem insertChars_ok (c : Char) : ∀ (n : Nat) (st : St), st.idx ≤ st.buf.length →
    Same (insertChars c n st) st ∧ (insertChars c n st).idx ≤ (insertChars c n st).buf.length
  | 0, st, h => ⟨Same.refl _, h⟩
  | n + 1, st, h => by
    rw [insertChars]
    split
    · rename_i hh
      simp only [Bool.and_eq_true, decide_eq_true_eq] at hh
      obtain ⟨h1, h2⟩ := insertChars_ok c n { st with buf := st.buf.set st.idx c, idx := st.idx + 1 } (by simp only [List.length_set]; omega)
      exact ⟨h1.trans (by same), h2⟩
    · obtain ⟨h1, h2⟩ := insertChars_ok c n { st with buf := insertAt st.buf st.idx [c], idx := st.idx + 1 }
        (by simp only [insertAt_length, List.length_singleton]; omega)
      exact ⟨h1.trans (by same), h2⟩

theorem selfInsert_ok {E : Env} {st : St} (h : Inv E st) (hm : Main st) (c : Char) : Out E none st (selfInsert c st) := by
  rw [selfInsert]; split
  · exact .alert h
  · split
    · exact .alert h
    · obtain ⟨h1, h2⟩ := insertChars_ok c (getCount st.arg 1).toNat (clearPrediction st) (h.clear hm).idx
      exact .same h ((same_reset _).trans (h1.trans (same_clear st))) h2

theorem digit_ok {E : Env} {st : St} (h : Inv E st) (c : Char) : Out E none st (digit c st) := by
  rw [digit]; split
  · split
    · exact .alert h
    · exact .same h (by same) h.idx
  · split
    · exact .same h (by same) h.idx
    · exact .same h (Same.refl _) h.idx

theorem acceptLine_ok {E : Env} {st : St} (h : Inv E st) : Out E none st (acceptLine st) := by
  rw [acceptLine]; split
  · exact .alert h
  · exact .same h (by same) h.idx

theorem eof_ok {E : Env} {st : St} (h : Inv E st) : Out E none st (eof st) := by
  rw [eof]; split
  · exact .alert h
  · exact .same h (by same) h.idx

theorem acceptWithHash_ok {E : Env} {st : St} (h : Inv E st) : Out E none st (acceptWithHash st) := by
  rw [acceptWithHash]; split
  · exact .alert h
  · have hc := same_clear st
    generalize clearPrediction st = s1 at *
    dsimp only
    generalize (if s1.arg.sign = 0 ∨ s1.buf.head? ≠ some '#' then '#' :: s1.buf else s1.buf.drop 1) = b
    refine .same h ?_ ?_
    · rw [acceptLine]; split
      · exact Same.trans (same_alert _) (Same.trans (b := s1) (by same) hc)
      · exact Same.trans (same_reset _) (Same.trans (b := s1) (by same) hc)
    · rw [acceptLine]; split <;> exact Nat.zero_le _

theorem setMode_ok {E : Env} {st : St} (h : Inv E st) (m : Mode) (b : Bool) : ∃ st', setMode m b st = some st' ∧ Saves E st.idx st st' := by
  rw [setMode]; split
  · exact ⟨_, rfl, .alert h _⟩
  · obtain ⟨s1, e1, i1, o1, z1⟩ := maybeSave_ok h
    simp only [bind, Option.bind, e1]
    refine ⟨_, rfl, Saves.of o1 z1 ?_ ?_⟩
    · have := i1.idx
      refine i1.of_same ?_ ?_
      · split <;> same
      · split
        · show s1.idx - 1 ≤ s1.buf.length; omega
        · exact i1.idx
    · split <;> exact ⟨rfl, rfl, rfl, rfl, rfl, rfl, rfl⟩

/-- The line was recorded before the command and then, changed, after it. -/
def Twice (E : Env) (st st' : St) : Prop :=
  Inv E st' ∧ st'.entry = st.entry ∧ st'.mainLen = none ∧ st'.cur = st.cur ∧ ∃ y, zip st' = (record (some st.idx) st).snap (y, st'.buf)

theorem appendLastBigword_ok {E : Env} {st : St} (h : Inv E st) (hm : Main st) : ∃ st', appendLastBigword E st = some st' ∧
    (Saves E st.idx st st' ∨ Twice E st st') := by
  rw [appendLastBigword]; split
  · exact ⟨_, rfl, Or.inl (.alert h _)⟩
  · rename_i hp
    obtain ⟨e, he, -⟩ := save_edit st
    have h1 := h.edited
    obtain ⟨s1, e1, i1, o1, z1⟩ := maybeSave_ok h1
    simp only [bind, Option.bind, e1]
    have hb : s1.buf = st.buf ∧ s1.idx = st.idx ∧ s1.mainLen = st.mainLen ∧ s1.arg = st.arg ∧ s1.entry = st.entry ∧ s1.cur = st.cur := by
      rw [o1.buf, o1.idx, o1.mainLen, o1.arg, o1.entry, o1.cur, he]; exact ⟨rfl, rfl, rfl, rfl, rfl, rfl⟩
    have hz : zip s1 = record (some st.idx) st := by rw [z1, he]; rfl
    have hal : Saves E st.idx st (alert s1) := Or.inl ⟨i1.alert, hb.2.2.2.2.1, hz, hb.2.2.2.2.2⟩
    split
    · exact ⟨_, rfl, Or.inl hal⟩
    · rename_i line _
      generalize hww : (if getCount s1.arg (-1) ≥ 0 then nthWord E.chars (getCount s1.arg (-1)).toNat line []
        else (nthWord E.chars (-getCount s1.arg (-1)).toNat line.reverse []).reverse) = w
      split
      · exact ⟨_, rfl, Or.inl hal⟩
      · have hm1 : Main s1 := by intro m hh; rw [hb.2.1]; exact hm m (hb.2.2.1 ▸ hh)
        have i2 := i1.clear hm1
        have hc := same_clear s1
        have hci := clear_idx s1
        have harg : (clearPrediction s1).arg = s1.arg := by rw [clearPrediction]; split <;> rfl
        generalize clearPrediction s1 = s2 at *
        have hj : ∃ j, (if s2.idx < s2.buf.length then { s2 with idx := s2.idx + 1 } else s2) = { s2 with idx := j } ∧ j ≤ s2.buf.length := by
          have := i2.idx
          split
          · exact ⟨_, rfl, by omega⟩
          · exact ⟨s2.idx, rfl, this⟩
        obtain ⟨j, hj, hjl⟩ := hj
        rw [hj]
        dsimp only
        have i3 : Inv E { s2 with buf := insertAt s2.buf j (' ' :: w), idx := j + 1 + w.length } :=
          i2.of_same (by same) (by simp only [insertAt_length, List.length_cons]; omega)
        have hz3 : zip { s2 with buf := insertAt s2.buf j (' ' :: w), idx := j + 1 + w.length } = record (some st.idx) st :=
          (show zip { s2 with buf := insertAt s2.buf j (' ' :: w), idx := j + 1 + w.length } = zip s2 from (Same.toUndo (by same)).zip).trans (hc.toUndo.zip.trans hz)
        have hen3 : ({ s2 with buf := insertAt s2.buf j (' ' :: w), idx := j + 1 + w.length } : St).entry = st.entry := hc.entry.trans hb.2.2.2.2.1
        have hcu3 : ({ s2 with buf := insertAt s2.buf j (' ' :: w), idx := j + 1 + w.length } : St).cur = st.cur := hc.cur.trans hb.2.2.2.2.2
        have hml3 : ({ s2 with buf := insertAt s2.buf j (' ' :: w), idx := j + 1 + w.length } : St).mainLen = none := hci.2
        have hp3 : isPending { s2 with buf := insertAt s2.buf j (' ' :: w), idx := j + 1 + w.length } = isPending st := by
          simp only [isPending, harg, hb.2.2.2.1]
        generalize ({ s2 with buf := insertAt s2.buf j (' ' :: w), idx := j + 1 + w.length } : St) = s3 at *
        obtain ⟨s4, e4, i4, o4, z4⟩ := maybeSave_ok i3
        rw [setMode, if_neg (by rw [hp3]; exact hp)]
        simp only [bind, Option.bind, e4]
        have hcond : ¬(s4.mode = .viInsert ∧ Mode.viInsert = .viCommand) := by simp
        rw [if_neg hcond]
        refine ⟨_, rfl, Or.inr ⟨i4.of_same (by same) i4.idx, o4.entry.trans hen3, o4.mainLen.trans hml3, o4.cur.trans hcu3, s3.idx, ?_⟩⟩
        rw [show zip (resetState (setOverwriting false { s4 with mode := .viInsert })) = zip s4 from rfl, z4, hz3]
        have : (resetState (setOverwriting false { s4 with mode := .viInsert })).buf = s3.buf := o4.buf
        rw [this]
        simp [activeLength, hml3]

theorem transposeChars_ok {E : Env} {st : St} (h : Inv E st) : ∃ st', transposeChars st = some st' ∧ Saves E st.idx st st' := by
  rw [transposeChars]; split
  · exact ⟨_, rfl, .alert h _⟩
  · rename_i hp
    obtain ⟨s0, e0, i0, o0, z0⟩ := maybeSave_ok h
    simp only [bind, Option.bind, e0]
    have hpos : 0 < s0.idx := by
      rw [o0.idx]; simp only [Bool.or_eq_true, decide_eq_true_eq, not_or] at hp; omega
    have hcur : ∃ j, (if s0.arg.sign = 0 ∧ s0.idx = s0.buf.length ∧ s0.idx ≥ 2 then { s0 with idx := s0.idx - 1 } else s0) = { s0 with idx := j } ∧
        0 < j ∧ j ≤ s0.buf.length := by
      have := i0.idx
      split
      · rename_i hh; exact ⟨_, rfl, by omega, by omega⟩
      · exact ⟨s0.idx, rfl, hpos, this⟩
    obtain ⟨j, hj, hj0, hjl⟩ := hcur
    rw [hj]
    have fin : ∀ s : St, Same s s0 → s.idx ≤ s.buf.length → Saves E st.idx st s := fun s hs hi => Saves.of o0 z0 (i0.of_same hs hi) hs.toUndo
    dsimp only
    split
    · exact ⟨_, rfl, fin _ (by same) (Nat.le_refl _)⟩
    · split
      · exact ⟨_, rfl, fin _ (by same) (Nat.zero_le _)⟩
      · rename_i h1 h2
        generalize hi : (if getCount s0.arg 1 ≥ 0 then j + (getCount s0.arg 1).toNat else j - (-getCount s0.arg 1).toNat) = i
        have hil : i ≤ s0.buf.length := by rw [← hi]; split <;> omega
        obtain ⟨c, hc⟩ := get_of_lt (show j - 1 < s0.buf.length by omega)
        rw [hc]
        refine ⟨_, rfl, fin _ ((same_reset _).trans ((same_extend _ _).trans ((same_extend _ _).trans (by same)))) ?_⟩
        simp only [resetState, (extend_buf _ _).1, (extend_buf _ _).2, insertAt_length, removeAt_length, List.length_singleton]
        omega

theorem transposeLoop_ok (C : Chars) (s : List Char) : ∀ (k e e' : Nat), e ≤ s.length → wordsToTranspose.loop C s k e = some e' → e ≤ e' ∧ e' ≤ s.length
  | 0, e, e', h, hh => by rw [wordsToTranspose.loop] at hh; cases hh; omega
  | k + 1, e, e', h, hh => by
    rw [wordsToTranspose.loop] at hh
    split at hh
    · cases hh
    · have := nextEmacs_ok C s e h
      have := transposeLoop_ok C s k _ e' this.2 hh
      omega

theorem transposeLoop'_ok (C : Chars) (s : List Char) : ∀ (k w : Nat), w ≤ s.length → ∃ r, wordsToTranspose.loop' C s k w = some r ∧ ∀ w', r = some w' → w' ≤ w
  | 0, w, h => ⟨_, rfl, fun w' hh => by cases hh; omega⟩
  | k + 1, w, h => by
    rw [wordsToTranspose.loop']
    split
    · exact ⟨_, rfl, fun w' hh => by cases hh⟩
    · obtain ⟨r, hr, hle⟩ := prevEmacs_ok C s w h
      rw [hr]
      obtain ⟨r', h1, h2⟩ := transposeLoop'_ok C s k r (by omega)
      exact ⟨r', h1, fun w' hh => by have := h2 w' hh; omega⟩

/-- The words to be exchanged are apart from each other and in the line. -/
theorem wordsToTranspose_ok (C : Chars) (n : Int) (s : List Char) (i : Nat) (hi : i ≤ s.length) :
    ∃ r, wordsToTranspose C n s i = some r ∧ ∀ s1 e1 s2 e2 j, r = some (s1, e1, s2, e2, j) → ¬e1 ≥ s2 →
      s1 ≤ e1 ∧ e1 ≤ s2 ∧ s2 ≤ e2 ∧ e2 ≤ s.length ∧ j ≤ s.length := by
  obtain ⟨a, ha, ha'⟩ := prevEmacs_ok C s i hi
  have hb := nextEmacs_ok C s a (by omega)
  simp only [wordsToTranspose, bind, Option.bind, ha]
  generalize nextEmacs C s a = b at *
  split
  · have hw := nextEmacs_ok C s b hb.2
    obtain ⟨w1, hw1, hw1'⟩ := prevEmacs_ok C s (nextEmacs C s b) hw.2
    rw [hw1]
    dsimp only
    cases hl : wordsToTranspose.loop C s (n.toNat - 1) (nextEmacs C s b) with
    | none => exact ⟨_, rfl, fun _ _ _ _ _ hh => by cases hh⟩
    | some e =>
      have := transposeLoop_ok C s _ _ _ hw.2 hl
      refine ⟨_, rfl, fun s1 e1 s2 e2 j hh hlt => ?_⟩
      simp only [Option.some.injEq, Prod.mk.injEq] at hh
      omega
  · obtain ⟨w, hw, hw'⟩ := prevEmacs_ok C s a (by omega)
    rw [hw]
    dsimp only
    have he := nextEmacs_ok C s w (by omega)
    obtain ⟨r, hr, hle⟩ := transposeLoop'_ok C s ((-n).toNat - 1) w (by omega)
    rw [hr]
    cases r with
    | none => exact ⟨_, rfl, fun _ _ _ _ _ hh => by cases hh⟩
    | some w' =>
      have := hle w' rfl
      refine ⟨_, rfl, fun s1 e1 s2 e2 j hh hlt => ?_⟩
      simp only [Option.some.injEq, Prod.mk.injEq] at hh
      omega

theorem transposeWords_ok {E : Env} {st : St} (h : Inv E st) : ∃ st', transposeWords E st = some st' ∧ Saves E st.idx st st' := by
  rw [transposeWords]; split
  · exact ⟨_, rfl, .alert h _⟩
  · obtain ⟨s0, e0, i0, o0, z0⟩ := maybeSave_ok h
    simp only [bind, Option.bind, e0]
    have fin : ∀ s : St, Same s s0 → s.idx ≤ s.buf.length → Saves E st.idx st s := fun s hs hi => Saves.of o0 z0 (i0.of_same hs hi) hs.toUndo
    split
    · exact ⟨_, rfl, fin _ (by same) i0.idx⟩
    · obtain ⟨r, hr, hb⟩ := wordsToTranspose_ok E.chars (getCount s0.arg 1) s0.buf s0.idx i0.idx
      rw [hr]
      match r, hb with
      | none, _ => exact ⟨_, rfl, fin _ (by same) i0.idx⟩
      | some (s1, e1, s2, e2, j), hb =>
        dsimp only
        split
        · exact ⟨_, rfl, fin _ (by same) i0.idx⟩
        · rename_i hlt
          obtain ⟨h1, h2, h3, h4, h5⟩ := hb s1 e1 s2 e2 j rfl hlt
          refine ⟨_, rfl, fin _ ((same_reset _).trans ((same_extend _ _).trans (by same))) ?_⟩
          simp only [resetState, (extend_buf _ _).1, (extend_buf _ _).2, List.length_append, List.length_take, List.length_drop,
            region_length _ _ _ h4, region_length _ _ _ (show s2 ≤ s0.buf.length by omega), region_length _ _ _ (show e1 ≤ s0.buf.length by omega)]
          omega

theorem capitalizeForward_ok (C : Chars) : ∀ (n i : Nat) (s : List Char), i ≤ s.length →
    (capitalizeForward C n i s).1 ≤ (capitalizeForward C n i s).2.length ∧ (capitalizeForward C n i s).2.length = s.length
  | 0, i, s, h => ⟨h, rfl⟩
  | n + 1, i, s, h => by
    have h1 := skip_le (fun c => !C.alnum c) s i h
    simp only [capitalizeForward]
    generalize skip (fun c => !C.alnum c) s i = a at *
    have hl : (s.modify a C.toUpper).length = s.length := by simp
    have h2 := skip_le C.alnum (s.modify a C.toUpper) (if a < (s.modify a C.toUpper).length then a + 1 else a) (by split <;> omega)
    generalize skip C.alnum (s.modify a C.toUpper) (if a < (s.modify a C.toUpper).length then a + 1 else a) = b at *
    generalize s.modify a C.toUpper = s' at *
    split
    · have := capitalizeForward_ok C n b s' h2
      exact ⟨this.1, this.2.trans hl⟩
    · exact ⟨h2, hl⟩

theorem capitalizeBackward_ok (C : Chars) : ∀ (n i : Nat) (s : List Char), i ≤ s.length →
    ∃ s', capitalizeBackward C n i s = some s' ∧ s'.length = s.length
  | 0, i, s, h => ⟨s, rfl, rfl⟩
  | n + 1, i, s, h => by
    obtain ⟨r, hr, hle⟩ := prevEmacs_ok C s i h
    rw [capitalizeBackward, hr]
    dsimp only
    have hl : (s.modify r C.toUpper).length = s.length := by simp
    split
    · obtain ⟨s', h1, h2⟩ := capitalizeBackward_ok C n r (s.modify r C.toUpper) (by omega)
      exact ⟨s', h1, h2.trans hl⟩
    · exact ⟨_, rfl, hl⟩

theorem capitalizeWord_ok {E : Env} {st : St} (h : Inv E st) : ∃ st', capitalizeWord E st = some st' ∧ Saves E st.idx st st' := by
  rw [capitalizeWord]; split
  · exact ⟨_, rfl, .alert h _⟩
  · obtain ⟨s0, e0, i0, o0, z0⟩ := maybeSave_ok h
    simp only [bind, Option.bind, e0]
    have fin : ∀ s : St, Same s s0 → s.idx ≤ s.buf.length → Saves E st.idx st s := fun s hs hi => Saves.of o0 z0 (i0.of_same hs hi) hs.toUndo
    have fin' : ∀ s : St, Same s s0 → s.idx ≤ s.buf.length → ∃ st', some (resetState (extendMain s.idx s)) = some st' ∧ Saves E st.idx st st' := by
      intro s hs hi
      refine ⟨_, rfl, fin _ ((same_reset _).trans ((same_extend _ _).trans hs)) ?_⟩
      simp only [resetState, (extend_buf _ _).1, (extend_buf _ _).2]; exact hi
    split
    · have := capitalizeForward_ok E.chars (getCount s0.arg 1).toNat s0.idx s0.buf i0.idx
      exact fin' { s0 with buf := _, idx := _ } (by same) this.1
    · split
      · obtain ⟨s', h1, h2⟩ := capitalizeBackward_ok E.chars (-getCount s0.arg 1).toNat s0.idx s0.buf i0.idx
        rw [h1]
        exact fin' { s0 with buf := s' } (by same) (by show s0.idx ≤ s'.length; rw [h2]; exact i0.idx)
      · exact fin' s0 (Same.refl _) i0.idx

theorem blanksBefore_le (C : Chars) (s : List Char) : ∀ i, blanksBefore C s i ≤ i
  | 0 => Nat.le_refl _
  | i + 1 => by
    have := blanksBefore_le C s i
    rw [blanksBefore]; split <;> omega

theorem replaceSpace_ok {E : Env} {st : St} (h : Inv E st) (d : Bool) (t : List Char) :
    ∃ st', replaceSpace E d t st = some st' ∧ Saves E st.idx st st' := by
  rw [replaceSpace]; split
  · exact ⟨_, rfl, .alert h _⟩
  · obtain ⟨s0, e0, i0, o0, z0⟩ := maybeSave_ok h
    simp only [bind, Option.bind, e0]
    refine ⟨_, rfl, Saves.of o0 z0 (i0.of_same ((same_reset _).trans (Same.trans (b := extendMain _ s0) (by same) (same_extend _ _))) ?_)
      ((same_reset _).trans (Same.trans (b := extendMain _ s0) (by same) (same_extend _ _))).toUndo⟩
    have h1 := blanksBefore_le E.chars s0.buf s0.idx
    have h2 := i0.idx
    simp only [resetState, (extend_buf _ _).1, List.length_append, List.length_take]
    omega

end Yash.Edit
