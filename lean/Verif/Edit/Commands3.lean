import Verif.Edit.Commands2
/-! # Each command keeps the invariant: undo, history and the rest -/
set_option autoImplicit false

namespace Yash.Edit
open Spec

/-! ## Undo -/

/-- A place in a list of lines. -/
def zipAt (l : List (Nat × List Char)) (u : Nat) : Zip := ⟨(l.take u).reverse, l[u]?.getD (0, []), l.drop (u + 1)⟩

theorem zipAt_back (l : List (Nat × List Char)) (u : Nat) (h : u < l.length) : (zipAt l u).back = zipAt l (u - 1) := by
  cases u with
  | zero => simp [zipAt, Zip.back]
  | succ u =>
    have h1 : u < l.length := by omega
    simp only [zipAt, Zip.back, List.take_succ, List.getElem?_eq_getElem h1, Option.toList, List.reverse_append, List.reverse_cons,
      List.reverse_nil, List.nil_append, List.cons_append, Nat.add_sub_cancel, Option.getD_some, List.getElem?_eq_getElem h]
    congr 1
    exact (List.drop_eq_getElem_cons h).symm

theorem zipAt_forward (l : List (Nat × List Char)) (u : Nat) (h : u < l.length) : (zipAt l u).forward = zipAt l (min (u + 1) (l.length - 1)) := by
  by_cases h1 : u + 1 < l.length
  · rw [show min (u + 1) (l.length - 1) = u + 1 by omega]
    simp only [zipAt, Zip.forward, List.drop_eq_getElem_cons h1]
    congr 1
    · simp only [List.take_succ, List.getElem?_eq_getElem h, Option.toList, List.reverse_append, List.reverse_cons, List.reverse_nil,
        List.nil_append, List.cons_append, Option.getD_some]
    · rw [List.getElem?_eq_getElem h1, Option.getD_some]
  · rw [show min (u + 1) (l.length - 1) = u by omega]
    simp only [zipAt, Zip.forward, List.drop_eq_nil_of_le (show l.length ≤ u + 1 by omega)]

theorem times_back (l : List (Nat × List Char)) : ∀ (k u : Nat), u < l.length → Zip.times Zip.back k (zipAt l u) = zipAt l (u - k)
  | 0, u, h => rfl
  | k + 1, u, h => by
    rw [Zip.times, zipAt_back l u h, times_back l k (u - 1) (by omega)]
    congr 1; omega

theorem times_forward (l : List (Nat × List Char)) : ∀ (k u : Nat), u < l.length → Zip.times Zip.forward k (zipAt l u) = zipAt l (min (u + k) (l.length - 1))
  | 0, u, h => by rw [Zip.times, Nat.add_zero, Nat.min_eq_left (by omega)]
  | k + 1, u, h => by
    rw [Zip.times, zipAt_forward l u h, times_forward l k _ (by omega)]
    congr 1; omega

theorem times_stuck (f : Zip → Zip) (z : Zip) (h : f z = z) : ∀ k, Zip.times f k z = z
  | 0 => rfl
  | k + 1 => by rw [Zip.times, h, times_stuck f z h k]

theorem zip_at {st : St} (h : st.undoEntry = st.entry) : zip st = zipAt st.undo st.undoIndex := by simp [zip, zipAt, h]

theorem snap_present (z : Zip) (x : Nat × List Char) : (z.snap x).present = x := by
  rw [Zip.snap]; split <;> rfl

/-- Where undo and its cancelling go. -/
def moved (n : Int) (z : Zip) : Zip := if n < 0 then Zip.times Zip.back (-n).toNat z else Zip.times Zip.forward n.toNat z

theorem cancelUndo_ok {E : Env} {st : St} (h : Inv E st) (hm : Main st) (n : Int) :
    ∃ st', cancelUndo n st = some st' ∧ Inv E st' ∧ st'.entry = st.entry ∧ st'.mainLen = none ∧
      zip st' = moved n (record (some st.idx) st) ∧ (st'.idx, st'.buf) = (zip st').present ∧ st'.mode = st.mode ∧ st'.state = st.state ∧ st'.cur = st.cur := by
  obtain ⟨s0, e0, i0, o0, z0⟩ := maybeSave_ok h
  have hm0 := o0.main hm
  simp only [cancelUndo, bind, Option.bind, e0]
  have i1 := i0.clear hm0
  have hc := same_clear s0
  have hci := clear_idx s0
  have hbuf : (clearPrediction s0).buf = st.buf.take (activeLength st) := by
    rw [clear_buf s0 i0.idx hm0, o0.buf]; congr 1
    simp only [activeLength, o0.buf, o0.idx, o0.mainLen]
  have hmode : (clearPrediction s0).mode = st.mode ∧ (clearPrediction s0).state = st.state ∧ (clearPrediction s0).cur = st.cur := by
    rw [← o0.mode, ← o0.state, ← o0.cur, clearPrediction]; split <;> exact ⟨rfl, rfl, rfl⟩
  have hz : zip (clearPrediction s0) = record (some st.idx) st := hc.toUndo.zip.trans z0
  have hen : (clearPrediction s0).entry = st.entry := hc.entry.trans o0.entry
  have hidx : (clearPrediction s0).idx = st.idx := hci.1.trans o0.idx
  generalize clearPrediction s0 = s1 at *
  -- nothing to go to
  have stay : moved n (record (some st.idx) st) = record (some st.idx) st → ∃ st', some (alert s1) = some st' ∧ Inv E st' ∧ st'.entry = st.entry ∧
      st'.mainLen = none ∧ zip st' = moved n (record (some st.idx) st) ∧ (st'.idx, st'.buf) = (zip st').present ∧ st'.mode = st.mode ∧ st'.state = st.state ∧ st'.cur = st.cur := by
    intro hs
    refine ⟨_, rfl, i1.alert, hen, hci.2, by rw [hs, ← hz]; rfl, ?_, hmode⟩
    show (s1.idx, s1.buf) = (zip s1).present
    rw [hz, record, snap_present, hidx, hbuf]
  by_cases he : s1.undoEntry = s1.entry
  · have hzz : record (some st.idx) st = zipAt s1.undo s1.undoIndex := by rw [← hz, zip_at he]
    have hu := i1.undoIndex
    rw [if_neg (by simpa using he)]
    split
    · rename_i hal
      apply stay
      rw [hzz]
      simp only [moved]
      simp only [Bool.or_eq_true, Bool.and_eq_true, decide_eq_true_eq, beq_iff_eq, Bool.not_eq_true', decide_eq_false_iff_not] at hal
      split
      · rename_i hneg
        rw [times_back _ _ _ hu]; congr 1; omega
      · rename_i hneg
        rw [times_forward _ _ _ hu]; congr 1; omega
    · generalize hi : (if n < 0 then (if s1.undoIndex < (-n).toNat then 0 else s1.undoIndex - (-n).toNat)
        else if s1.undo.length - s1.undoIndex ≤ n.toNat then s1.undo.length - 1 else s1.undoIndex + n.toNat) = i
      have hil : i < s1.undo.length := by rw [← hi]; split <;> split <;> omega
      have hget : s1.undo[i]? = some s1.undo[i] := by simp [hil]
      have hmem := i1.undo s1.undo[i] (List.getElem_mem hil)
      generalize s1.undo[i] = x at hget hmem
      obtain ⟨j, c⟩ := x
      simp only [hget]
      have hmv : zipAt s1.undo i = moved n (record (some st.idx) st) := by
        rw [hzz]; simp only [moved]
        split
        · rename_i hneg
          rw [times_back _ _ _ hu]; congr 1; rw [← hi, if_pos hneg]; split <;> omega
        · rename_i hneg
          rw [times_forward _ _ _ hu]; congr 1; rw [← hi, if_neg hneg]; split <;> omega
      simp only at hmem
      rw [if_neg (by omega)]
      have hzi : zip (resetState { s1 with undoIndex := i, buf := c, idx := j }) = zipAt s1.undo i := zip_at (st := resetState { s1 with undoIndex := i, buf := c, idx := j }) he
      refine ⟨_, rfl, ?_, hen, hci.2, by rw [hzi, hmv], ?_, hmode⟩
      · exact { i1 with idx := hmem, undoIndex := hil }
      · rw [hzi]; simp [zipAt, hget, resetState]
  · rw [if_pos (by simpa using he)]
    apply stay
    rw [← hz]
    simp only [zip, if_neg he, moved]
    split
    · exact times_stuck _ _ rfl _
    · exact times_stuck _ _ rfl _

/-! ## History -/

theorem goToHistory_ok {E : Env} {st : St} (h : Inv E st) (hm : Main st) (l : Option Nat) (hl : ∀ k, l = some k → k < E.hist.length) (p : CurPos) :
    ∃ st', goToHistory E l p st = some st' ∧ Inv E st' ∧ st'.mainLen = none ∧ st'.entry = l ∧ st'.cur = st.cur := by
  obtain ⟨s0, e0, i0, o0, z0⟩ := maybeSave_ok h
  have hm0 := o0.main hm
  simp only [goToHistory, bind, Option.bind, e0]
  have i1 := i0.clear hm0
  have hci := clear_idx s0
  have hcu : (clearPrediction s0).cur = st.cur := (same_clear s0).cur.trans o0.cur
  generalize clearPrediction s0 = s1 at *
  have hu := i1.undoIndex
  by_cases he : l = s1.undoEntry
  · have hget : s1.undo[s1.undoIndex]? = some s1.undo[s1.undoIndex] := by simp [hu]
    have hmem := i1.undo s1.undo[s1.undoIndex] (List.getElem_mem hu)
    generalize s1.undo[s1.undoIndex] = x at hget hmem
    obtain ⟨j, c⟩ := x
    simp only at hmem
    have hn : ¬c.length < j := by omega
    simp only [if_pos he, hget, if_neg hn]
    refine ⟨_, rfl, ?_, hci.2, rfl, hcu⟩
    exact { i1 with
      idx := hmem
      save := fun hne => absurd he.symm hne
      entry := hl
      value := fun hne => absurd he.symm hne }
  · simp only [if_neg he]
    have hb : lineOf E l = some (original E l) := by
      cases l with
      | none => rfl
      | some k =>
        have := hl k rfl
        simp [lineOf, original, this]
    rw [hb]
    refine ⟨_, rfl, ?_, hci.2, rfl, hcu⟩
    have hidx : (match p with | .keep => if s1.idx > (original E l).length then (original E l).length else s1.idx | .start => 0 | .finish => (original E l).length) ≤
        (original E l).length := by
      cases p
      · dsimp only; split <;> omega
      · exact Nat.zero_le _
      · exact Nat.le_refl _
    exact { i1 with
      idx := hidx
      save := fun _ => hidx
      entry := hl
      value := fun _ => rfl }

theorem historyAbsolute_ok {E : Env} (hE : E.Ok) {st : St} (h : Inv E st) (hm : Main st) (e : HistoryEnd) (p : CurPos) :
    ∃ st', historyAbsolute E e p st = some st' ∧ Inv E st' ∧ st'.cur = st.cur := by
  unfold historyAbsolute; split
  · exact ⟨_, rfl, h.alert, rfl⟩
  · split
    · split
      · exact ⟨_, rfl, h.alert, rfl⟩
      · rename_i hne
        have hpos := List.length_pos_iff.2 hne
        obtain ⟨s, e1, i1, -, -, c1⟩ := goToHistory_ok h hm (endEntry E e)
          (by intro k hk; cases e <;> simp [endEntry] at hk <;> omega) p
        simp only [bind, Option.bind, e1]
        exact ⟨_, rfl, i1.reset, c1⟩
    · dsimp only; split
      · exact ⟨_, rfl, h.alert, rfl⟩
      · split
        · exact ⟨_, rfl, h.alert, rfl⟩
        · rename_i k hk
          obtain ⟨s, e1, i1, -, -, c1⟩ := goToHistory_ok h hm (some k) (by intro k' hk'; cases hk'; exact hE.number _ _ hk) p
          simp only [bind, Option.bind, e1]
          exact ⟨_, rfl, i1.reset, c1⟩

theorem nextEntry_lt (E : Env) (l : Option Nat) (k : Nat) (h : nextEntry E l = some k) : k < E.hist.length := by
  cases l with
  | none =>
    simp only [nextEntry] at h; split at h
    · cases h
    · cases h; exact List.length_pos_iff.2 (by assumption)
  | some j =>
    simp only [nextEntry] at h; split at h
    · cases h; assumption
    · cases h

theorem prevEntry_lt (E : Env) (l : Option Nat) (hl : ∀ k, l = some k → k < E.hist.length) (k : Nat) (h : prevEntry E l = some k) : k < E.hist.length := by
  match l with
  | none =>
    simp only [prevEntry] at h; split at h
    · cases h
    · cases h; have := List.length_pos_iff.2 (by assumption : ¬E.hist = []); omega
  | some 0 => simp [prevEntry] at h
  | some (j + 1) => simp only [prevEntry] at h; cases h; have := hl _ rfl; omega

theorem forwardEntries_lt (E : Env) : ∀ (n : Nat) (l r : Option Nat), (∀ k, l = some k → k < E.hist.length) → forwardEntries E n l = some r →
    ∀ k, r = some k → k < E.hist.length
  | 0, l, r, hl, h => by rw [forwardEntries] at h; cases h; exact hl
  | n + 1, l, r, hl, h => by
    rw [forwardEntries] at h; split at h
    · cases h
    · exact forwardEntries_lt E n _ r (nextEntry_lt E l) h

theorem backwardEntries_lt (E : Env) : ∀ (n : Nat) (l r : Option Nat), (∀ k, l = some k → k < E.hist.length) → backwardEntries E n l = some r →
    ∀ k, r = some k → k < E.hist.length
  | 0, l, r, hl, h => by rw [backwardEntries] at h; cases h; exact hl
  | n + 1, l, r, hl, h => by
    rw [backwardEntries] at h; split at h
    · cases h
    · exact backwardEntries_lt E n _ r (prevEntry_lt E l hl) h

theorem historyRelative_ok {E : Env} {st : St} (h : Inv E st) (hm : Main st) (n : Int) (p : CurPos) :
    ∃ st', historyRelative E n p st = some st' ∧ Inv E st' ∧ st'.cur = st.cur := by
  rw [historyRelative]; split
  · exact ⟨_, rfl, h.alert, rfl⟩
  · split
    · exact ⟨_, rfl, h.alert, rfl⟩
    · rename_i l hl
      have : ∀ k, l = some k → k < E.hist.length := by
        split at hl
        · exact forwardEntries_lt E _ _ _ h.entry hl
        · exact backwardEntries_lt E _ _ _ h.entry hl
      obtain ⟨s, e1, i1, -, -, c1⟩ := goToHistory_ok h hm l this p
      simp only [bind, Option.bind, e1]
      exact ⟨_, rfl, i1.reset, c1⟩

theorem searchEntry_lt (E : Env) (fwd : Bool) (t : List Char) : ∀ (n : Nat) (l : Option Nat) (k : Nat), (∀ k, l = some k → k < E.hist.length) →
    searchEntry E fwd t n l = some k → k < E.hist.length
  | 0, l, k, hl, h => by simp [searchEntry] at h
  | n + 1, l, k, hl, h => by
    rw [searchEntry] at h
    split at h
    · cases h
    · rename_i j hj
      have hjl : j < E.hist.length := by
        split at hj
        · exact nextEntry_lt E l j hj
        · exact prevEntry_lt E l hl j hj
      split at h
      · cases h; exact hjl
      · exact searchEntry_lt E fwd t n (some j) k (by intro k' hk'; cases hk'; exact hjl) h

theorem beginningLoop_ok {E : Env} (fwd : Bool) (t : List Char) : ∀ (n : Nat) (st : St), Inv E st → Main st →
    ∃ st', beginningLoop E fwd t n st = some st' ∧ Inv E st' ∧ st'.cur = st.cur
  | 0, st, h, _ => ⟨st, rfl, h, rfl⟩
  | n + 1, st, h, hm => by
    rw [beginningLoop]
    split
    · split
      · obtain ⟨s, e1, i1, -, -, c1⟩ := goToHistory_ok h hm none (by intro k hk; cases hk) .keep
        exact ⟨s, e1, i1, c1⟩
      · exact ⟨_, rfl, h.alert, rfl⟩
    · rename_i k hk
      have hkl : k < E.hist.length := by
        split at hk
        · cases hk
        · exact searchEntry_lt E fwd t _ _ k h.entry hk
      obtain ⟨s, e1, i1, m1, -, c1⟩ := goToHistory_ok h hm (some k) (by intro k' hk'; cases hk'; exact hkl) .keep
      rw [e1]
      obtain ⟨s2, e2, i2, c2⟩ := beginningLoop_ok fwd t n s i1 (Main.of_none m1)
      exact ⟨s2, e2, i2, c2.trans c1⟩

theorem beginningSearch_ok {E : Env} {st : St} (h : Inv E st) (hm : Main st) (fwd : Bool) :
    ∃ st', beginningSearch E fwd st = some st' ∧ Inv E st' ∧ st'.cur = st.cur := by
  rw [beginningSearch]; split
  · exact ⟨_, rfl, h.alert, rfl⟩
  · obtain ⟨s, e1, i1, c1⟩ := beginningLoop_ok (E := E) (if getCount st.arg 1 < 0 then !fwd else fwd) (st.buf.take st.idx) (getCount st.arg 1).natAbs st h hm
    simp only [bind, Option.bind, e1]
    exact ⟨_, rfl, i1.reset, c1⟩

end Yash.Edit
