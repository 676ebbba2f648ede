import Verif.Edit.Inv
/-! # No command fails -/
set_option autoImplicit false

namespace Yash.Edit
open Spec

/-- The fields that undo depends on are the same. -/
structure SameUndo (a b : St) : Prop where
  undo : a.undo = b.undo
  undoIndex : a.undoIndex = b.undoIndex
  undoEntry : a.undoEntry = b.undoEntry
  undoSave : a.undoSave = b.undoSave
  entry : a.entry = b.entry
  value : a.value = b.value
  cur : a.cur = b.cur

theorem Same.toUndo {a b : St} (h : Same a b) : SameUndo a b := ⟨h.1, h.2, h.3, h.4, h.5, h.6, h.12⟩
theorem SameUndo.refl (a : St) : SameUndo a a := ⟨rfl, rfl, rfl, rfl, rfl, rfl, rfl⟩
theorem SameUndo.trans {a b c : St} (h : SameUndo a b) (h' : SameUndo b c) : SameUndo a c :=
  ⟨h.1.trans h'.1, h.2.trans h'.2, h.3.trans h'.3, h.4.trans h'.4, h.5.trans h'.5, h.6.trans h'.6, h.7.trans h'.7⟩

theorem SameUndo.zip {a b : St} (h : SameUndo a b) : zip a = zip b := by
  simp only [Edit.zip, h.undo, h.undoIndex, h.undoEntry, h.undoSave, h.entry, h.value]

/-- What the undo history is after the line was or was not recorded, with the cursor at the index. -/
def record (saved : Option Nat) (st : St) : Zip :=
  match saved with
  | some i => (Edit.zip st).snap (i, st.buf.take (activeLength st))
  | none => Edit.zip st

/-- How a command leaves the state: whether it recorded the line for undo. -/
structure Out (E : Env) (saved : Option Nat) (st st' : St) : Prop where
  inv : Inv E st'
  entry : st'.entry = st.entry
  zip : zip st' = record saved st
  cur : st'.cur = st.cur

/-- The line was recorded, or nothing changed. -/
def Saves (E : Env) (i : Nat) (st st' : St) : Prop :=
  Out E (some i) st st' ∨ Out E none st st' ∧ st'.buf = st.buf ∧ st'.idx = st.idx ∧ st'.mainLen = st.mainLen

theorem Out.same {E : Env} {st st' : St} (h : Inv E st) (s : Same st' st) (hi : st'.idx ≤ st'.buf.length) : Out E none st st' :=
  ⟨h.of_same s hi, s.entry, s.toUndo.zip, s.cur⟩

theorem Out.alert {E : Env} {st : St} (h : Inv E st) : Out E none st (alert st) := ⟨h.alert, rfl, rfl, rfl⟩

theorem Saves.alert {E : Env} {st : St} (h : Inv E st) (i : Nat) : Saves E i st (alert st) := Or.inr ⟨.alert h, rfl, rfl, rfl⟩

theorem Saves.out {E : Env} {st st' : St} {i : Nat} (h : Saves E i st st') : ∃ saved, Out E saved st st' := by
  rcases h with h | ⟨h, -⟩
  · exact ⟨_, h⟩
  · exact ⟨_, h⟩

/-- After the line was recorded, the undo history stays as it is. -/
theorem Saves.of {E : Env} {st s1 st' : St} (o : OnlyUndo s1 st) (z : Edit.zip s1 = (Edit.zip st).snap (st.idx, st.buf.take (activeLength st)))
    (i : Inv E st') (u : SameUndo st' s1) : Saves E st.idx st st' :=
  Or.inl ⟨i, u.entry.trans o.entry, u.zip.trans z, u.cur.trans o.cur⟩

theorem region_length (s : List Char) (a b : Nat) (h : b ≤ s.length) : (region s a b).length = b - a := by
  simp only [region, List.length_take, List.length_drop]; omega

theorem removeAt_length (s : List Char) (i n : Nat) : (removeAt s i n).length = min i s.length + (s.length - (i + n)) := by
  simp [removeAt]

theorem insertAt_length (s : List Char) (i : Nat) (t : List Char) : (insertAt s i t).length = s.length + t.length := by
  simp only [insertAt, List.length_append, List.length_take, List.length_drop]; omega

/-- The part of the line is changed, and nothing else fails. -/
theorem applyMec_ok {E : Env} {st : St} (h : Inv E st) (hm : Main st) (old new start fin : Nat) (hs : start ≤ st.idx) (hsf : start ≤ fin)
    (hn : new ≤ st.buf.length) (hf : fin ≤ st.buf.length) (ho : ¬old ≤ new → fin ≤ st.idx) :
    ∃ st', applyMec E old new start fin st = some st' ∧ Inv E st' ∧ SameUndo st' st := by
  have hi := h.idx
  -- copying
  have hcopy : ∃ s1, (if st.arg.motion.copy then addToRing (region st.buf start fin) st else st) = s1 ∧ Inv E s1 ∧ SameUndo s1 st ∧
      s1.buf = st.buf ∧ s1.idx = st.idx ∧ s1.mainLen = st.mainLen ∧ s1.arg = st.arg ∧ s1.overwrite = st.overwrite := by
    refine ⟨_, rfl, ?_⟩
    split
    · refine ⟨ring_add _ h, ?_⟩
      rw [addToRing.eq_def]
      split <;> exact ⟨⟨rfl, rfl, rfl, rfl, rfl, rfl, rfl⟩, rfl, rfl, rfl, rfl, rfl⟩
    · exact ⟨h, SameUndo.refl _, rfl, rfl, rfl, rfl, rfl⟩
  obtain ⟨s1, e1, i1, u1, b1, x1, m1, a1, o1⟩ := hcopy
  -- the case
  have hcase : ∃ s2, (if (st.arg.motion.upper || st.arg.motion.lower) = true then
      extendMain fin { s1 with buf := s1.buf.take start ++ (region s1.buf start fin).map (caseOf E.chars st.arg.motion) ++ s1.buf.drop fin }
    else s1) = s2 ∧ Inv E s2 ∧ SameUndo s2 st ∧ s2.buf.length = st.buf.length ∧ s2.idx = st.idx ∧ (∀ m, s2.mainLen = some m → st.idx ≤ m) ∧
      s2.overwrite = st.overwrite := by
    refine ⟨_, rfl, ?_⟩
    split
    · have hl : (s1.buf.take start ++ (region s1.buf start fin).map (caseOf E.chars st.arg.motion) ++ s1.buf.drop fin).length = st.buf.length := by
        rw [b1]
        simp only [List.length_append, List.length_take, List.length_map, region_length _ _ _ hf, List.length_drop]
        omega
      have s := same_extend fin { s1 with buf := s1.buf.take start ++ (region s1.buf start fin).map (caseOf E.chars st.arg.motion) ++ s1.buf.drop fin }
      have eb := extend_buf fin { s1 with buf := s1.buf.take start ++ (region s1.buf start fin).map (caseOf E.chars st.arg.motion) ++ s1.buf.drop fin }
      have s' : Same { s1 with buf := s1.buf.take start ++ (region s1.buf start fin).map (caseOf E.chars st.arg.motion) ++ s1.buf.drop fin } s1 := by same
      refine ⟨i1.of_same (s.trans s') ?_, (s.trans s').toUndo.trans u1, ?_, ?_, ?_, ?_⟩
      · rw [eb.1, eb.2]; simp only [x1]; rw [hl]; exact hi
      · rw [eb.1]; exact hl
      · rw [eb.2]; exact x1
      · intro m hmm
        rw [extendMain] at hmm
        simp only [m1] at hmm
        split at hmm
        · rename_i hnone; exact absurd hmm (by rw [hnone]; simp)
        · rename_i m' hsome
          have := hm m' hsome
          split at hmm
          · simp only [Option.some.injEq] at hmm; omega
          · rw [hsome] at hmm; simp only [Option.some.injEq] at hmm; omega
      · rw [extendMain]; split
        · exact o1
        · split <;> exact o1
    · exact ⟨i1, u1, by rw [b1], x1, fun m hmm => hm m (m1 ▸ hmm), o1⟩
  obtain ⟨s2, e2, i2, u2, b2, x2, m2, o2⟩ := hcase
  -- the cursor
  have hcur : ∃ s3, { s2 with idx := if (st.arg.motion.toStart && st.arg.motion.toEnd) = true then new else if st.arg.motion.toStart then start
      else if st.arg.motion.toEnd then fin else s2.idx } = s3 ∧ Inv E s3 ∧ SameUndo s3 st ∧ s3.buf.length = st.buf.length ∧
      (∀ m, s3.mainLen = some m → st.idx ≤ m) ∧ s3.overwrite = st.overwrite := by
    refine ⟨_, rfl, i2.of_same (by same) ?_, (Same.toUndo (by same)).trans u2, b2, m2, o2⟩
    simp only
    rw [b2]
    split
    · exact hn
    · split
      · omega
      · split <;> omega
  obtain ⟨s3, e3, i3, u3, b3, m3, o3⟩ := hcur
  unfold applyMec
  dsimp only
  rw [e1, e2, e3]
  -- deletion
  have hdel : ∃ s4, (if st.arg.motion.delete then deletePart old new start fin (clearPrediction (saveEdit s3)) else some s3) = some s4 ∧
      Inv E s4 ∧ SameUndo s4 st := by
    split
    · have i4 : Inv E (saveEdit s3) := i3.edited
      obtain ⟨e, he, -⟩ := save_edit s3
      have hlen : st.idx ≤ (clearPrediction (saveEdit s3)).buf.length := by
        rw [clearPrediction]
        have hb : (saveEdit s3).buf = s3.buf := by rw [he]
        have hml : (saveEdit s3).mainLen = s3.mainLen := by rw [he]
        split
        · rw [hb, b3]; exact hi
        · rename_i m hsome
          have := m3 m (hml ▸ hsome)
          simp only; split
          · rw [List.length_take, hb, b3]; omega
          · rw [hb, b3]; exact hi
      have sc := same_clear (saveEdit s3)
      have u4 : SameUndo (clearPrediction (saveEdit s3)) st := by
        refine sc.toUndo.trans (SameUndo.trans ?_ u3)
        rw [he]; exact ⟨rfl, rfl, rfl, rfl, rfl, rfl, rfl⟩
      have ok : ∀ b : List Char, start ≤ b.length → Inv E { clearPrediction (saveEdit s3) with buf := b, idx := start } ∧
          SameUndo { clearPrediction (saveEdit s3) with buf := b, idx := start } st := by
        intro b hb
        have s : Same { clearPrediction (saveEdit s3) with buf := b, idx := start } (clearPrediction (saveEdit s3)) := by same
        exact ⟨i4.of_same (s.trans sc) hb, s.toUndo.trans u4⟩
      have hrm : start ≤ (removeAt (clearPrediction (saveEdit s3)).buf start (fin - start)).length := by
        rw [removeAt_length]; omega
      rw [deletePart.eq_def]
      split
      · rename_i save _
        split
        · obtain ⟨h1, h2⟩ := ok _ hrm
          exact ⟨_, rfl, h1, h2⟩
        · rename_i hon
          have := ho hon
          rw [restoreOverwritten]
          generalize hmid : (if save.length < start then start else if save.length > fin then fin else save.length) = mid
          have hmid' : start ≤ mid ∧ mid ≤ fin ∧ (mid - start ≤ save.length - start) := by
            rw [← hmid]; split <;> (try split) <;> omega
          dsimp only
          rw [if_pos (by omega)]
          refine ⟨_, rfl, ok _ ?_⟩
          simp only [removeAt, List.length_append, List.length_take, List.length_drop]
          omega
      · obtain ⟨h1, h2⟩ := ok _ hrm
        exact ⟨_, rfl, h1, h2⟩
    · exact ⟨_, rfl, i3, u3⟩
  obtain ⟨s4, e4, i4, u4⟩ := hdel
  rw [e4]
  refine ⟨_, rfl, ?_⟩
  split
  · have s : Same (resetState (setOverwriting false { s4 with mode := .viInsert })) s4 := by same
    exact ⟨i4.of_same s i4.idx, s.toUndo.trans u4⟩
  · exact ⟨i4.reset, (same_reset s4).toUndo.trans u4⟩

theorem OnlyUndo.main {a b : St} (h : OnlyUndo a b) (hm : Main b) : Main a := by
  intro m hh; rw [h.idx]; exact hm m (h.mainLen ▸ hh)

/-- A motion does not fail. -/
theorem execMotion_ok {E : Env} {st : St} (h : Inv E st) (hm : Main st) (new : Nat) (inclusive : Bool) (hn : new ≤ st.buf.length)
    (hinc : inclusive = true → st.idx ≤ new) :
    ∃ st', execMotion E new inclusive st = some st' ∧ Out E (if repeatedBackspace new st then none else some st.idx) st st' := by
  have hi := h.idx
  rw [execMotion, if_neg (by omega)]
  dsimp only
  generalize hst : (if st.idx ≤ new then st.idx else new) = start
  generalize hfi : (if st.idx ≤ new then new else st.idx) = fin
  generalize hfi' : (if (inclusive && decide (fin < st.buf.length)) = true then fin + 1 else fin) = fin'
  have h1 : start ≤ st.idx := by rw [← hst]; split <;> omega
  have h2 : start ≤ fin ∧ fin ≤ st.buf.length := by rw [← hst, ← hfi]; split <;> omega
  have h3 : start ≤ fin' ∧ fin' ≤ st.buf.length := by
    rw [← hfi']; split
    · rename_i hh; simp only [Bool.and_eq_true, decide_eq_true_eq] at hh; omega
    · omega
  have h4 : ¬st.idx ≤ new → fin' ≤ st.idx := by
    intro hh
    have : inclusive = false := by
      cases inclusive
      · rfl
      · exact absurd (hinc rfl) hh
    rw [← hfi', this, ← hfi]; simp [hh]
  cases hr : repeatedBackspace new st
  · obtain ⟨s1, e1, i1, o1, z1⟩ := maybeSave_ok h
    simp only [Bool.false_eq_true, if_false, e1, Option.bind_some]
    obtain ⟨s2, e2, i2, u2⟩ := applyMec_ok (E := E) i1 (o1.main hm) st.idx new start fin' (by rw [o1.idx]; exact h1) h3.1
      (by rw [o1.buf]; exact hn) (by rw [o1.buf]; exact h3.2) (by rw [o1.idx]; exact h4)
    exact ⟨s2, e2, i2, u2.entry.trans o1.entry, by simp [u2.zip, z1, record], u2.cur.trans o1.cur⟩
  · simp only [if_true, Option.bind_some]
    obtain ⟨s2, e2, i2, u2⟩ := applyMec_ok (E := E) h hm st.idx new start fin' h1 h3.1 hn h3.2 h4
    exact ⟨s2, e2, i2, u2.entry, by simp [u2.zip, record], u2.cur⟩

end Yash.Edit
