import Verif.Edit.Commands
/-! # Each command keeps the invariant: putting, undo, history and the rest -/
set_option autoImplicit false

namespace Yash.Edit
open Spec

theorem setPending_ok {E : Env} {st : St} (h : Inv E st) (hm : Main st) (f : Mec) :
    ∃ st', setPending E f st = some st' ∧ Saves E 0 st st' := by
  rw [setPending]; split
  · exact ⟨_, rfl, Or.inr ⟨.same h (by same) h.idx, rfl, rfl, rfl⟩⟩
  · split
    · obtain ⟨st', e, o⟩ := execAll_ok h hm
      exact ⟨st', e, Or.inl o⟩
    · exact ⟨_, rfl, .alert h _⟩

theorem execOnLine_ok {E : Env} {st : St} (h : Inv E st) (hm : Main st) (f : Mec) :
    ∃ st', execOnLine E f st = some st' ∧ Saves E 0 st st' := by
  rw [execOnLine]; split
  · exact ⟨_, rfl, .alert h _⟩
  · obtain ⟨st', e, o⟩ := execAll_ok (E := E) (st := { st with arg := { st.arg with motion := f } }) (h.of_same (by same) h.idx) hm
    exact ⟨st', e, Or.inl ⟨o.inv, o.entry, o.zip, o.cur⟩⟩

/-! ## Putting -/

theorem flatten_replicate_length (n : Nat) (s : List Char) : (List.replicate n s).flatten.length = n * s.length := by
  simp [List.length_flatten]

/-- Putting a string does not fail if it is put at least once. -/
theorem insertKilled_ok {E : Env} {st : St} (h : Inv E st) (hm : Main st) (after onLast : Bool) (i : Nat) (s : List Char)
    (hi : i < 32) (hs : st.ring[i]? = some (some s)) (hn : 0 < getCount st.arg 1) :
    ∃ st', insertKilled after onLast i st = some st' ∧ Inv E st' ∧ SameUndo st' st ∧ st'.putStart + st'.putLen ≤ st'.buf.length ∧
      st'.mainLen = none := by
  have hne : s ≠ [] := h.ring s (List.mem_of_getElem? hs)
  have hc := same_clear st
  have hl := clear_le st h.idx hm
  have hci := clear_idx st
  have harg : (clearPrediction st).arg = st.arg := by rw [clearPrediction]; split <;> rfl
  rw [insertKilled]
  dsimp only
  generalize clearPrediction st = s1 at *
  rw [show s1.ring[i]? = some (some s) by rw [hc.ring]; exact hs]
  dsimp only
  generalize hj : (if (after && decide (s1.idx < s1.buf.length)) = true then ({ s1 with lastPut := i, idx := s1.idx + 1 } : St) else { s1 with lastPut := i }) = s2
  have hs2 : ∃ j, s2 = { s1 with lastPut := i, idx := j } ∧ j ≤ s1.buf.length := by
    rw [← hj]; split
    · rename_i hh
      simp only [Bool.and_eq_true, decide_eq_true_eq] at hh
      exact ⟨_, rfl, by omega⟩
    · exact ⟨s1.idx, rfl, by rw [hci.1]; exact hl⟩
  obtain ⟨j, hs2, hjl⟩ := hs2
  subst hs2
  simp only [harg]
  have hlen : 0 < (List.replicate (getCount st.arg 1).toNat s).flatten.length := by
    rw [flatten_replicate_length]
    exact Nat.mul_pos (by omega) (List.length_pos_iff.2 hne)
  have hil := insertAt_length s1.buf j (List.replicate (getCount st.arg 1).toNat s).flatten
  generalize insertAt s1.buf j (List.replicate (getCount st.arg 1).toNat s).flatten = b at *
  rw [if_neg (by omega)]
  refine ⟨_, rfl, ?_, ?_, ?_, ?_⟩
  · have h1 : Inv E s1 := h.of_same hc (by rw [hci.1]; exact hl)
    exact { h1 with
      idx := by simp only [resetState]; split <;> omega
      put := hi }
  · exact ⟨hc.undo, hc.undoIndex, hc.undoEntry, hc.undoSave, hc.entry, hc.value, hc.cur⟩
  · simp only [resetState]; omega
  · simp only [resetState]; exact hci.2

/-- The range of the last put is in the line. -/
def Fresh (st : St) : Prop :=
  st.ring[st.lastPut]? = some none ∨ st.putStart + st.putLen ≤ st.buf.length ∧ st.mainLen = none

theorem putKilled_ok {E : Env} {st : St} (h : Inv E st) (hm : Main st) (after onLast : Bool) (hn : 0 < getCount st.arg 1) :
    ∃ st', putKilled after onLast st = some st' ∧ Saves E st.idx st st' ∧ (st.arg.motion = .move → Fresh st') := by
  rw [putKilled]; split
  · rename_i hp
    exact ⟨_, rfl, .alert h _, fun hh => by simp [isPending, hh] at hp⟩
  · obtain ⟨e, he, -⟩ := save_edit st
    have h1 := h.edited
    obtain ⟨s1, e1, i1, o1, z1⟩ := maybeSave_ok h1
    simp only [bind, Option.bind, e1]
    have o : OnlyUndo s1 st ∨ True := Or.inr trivial
    have hb : s1.buf = st.buf ∧ s1.idx = st.idx ∧ s1.mainLen = st.mainLen ∧ s1.arg = st.arg ∧ s1.entry = st.entry ∧ s1.cur = st.cur := by
      rw [o1.buf, o1.idx, o1.mainLen, o1.arg, o1.entry, o1.cur, he]; exact ⟨rfl, rfl, rfl, rfl, rfl, rfl⟩
    have hz : zip s1 = record (some st.idx) st := by rw [z1, he]; rfl
    split
    · rename_i hr
      refine ⟨_, rfl, Or.inl ⟨i1.alert, hb.2.2.2.2.1, hz, hb.2.2.2.2.2⟩, fun _ => Or.inl ?_⟩
      have := i1.ringEmpty hr
      have hlp := i1.put
      have hrl := i1.ringLen
      have : s1.ring[s1.lastPut]? = some s1.ring[s1.lastPut] := by simp
      show s1.ring[s1.lastPut]? = some none
      rw [this, i1.ringEmpty hr _ (List.getElem_mem (by omega))]
    · rename_i hr
      have hrl := i1.ringLen
      have hlt : (s1.nextKill + 31) % 32 < s1.ring.length := by omega
      have hsome : ∃ s, s1.ring[(s1.nextKill + 31) % 32]? = some (some s) := by
        have h2 : s1.ring[(s1.nextKill + 31) % 32]? = some s1.ring[(s1.nextKill + 31) % 32] := by simp [hlt]
        rw [h2] at hr ⊢
        cases hx : s1.ring[(s1.nextKill + 31) % 32] with
        | none => rw [hx] at hr; exact absurd rfl hr
        | some s => exact ⟨s, rfl⟩
      obtain ⟨s, hs⟩ := hsome
      have hm1 : Main s1 := by intro m hh; rw [hb.2.1]; exact hm m (hb.2.2.1 ▸ hh)
      obtain ⟨s2, e2, i2, u2, f2, m2⟩ := insertKilled_ok i1 hm1 after onLast _ s (by omega) hs (by rw [hb.2.2.2.1]; exact hn)
      exact ⟨s2, e2, Or.inl ⟨i2, u2.entry.trans hb.2.2.2.2.1, u2.zip.trans hz, u2.cur.trans hb.2.2.2.2.2⟩, fun _ => Or.inr ⟨f2, m2⟩⟩

theorem previousKilled_ok (ring : List (Option (List Char))) (hl : ring.length = 32) (s : List Char) : ∀ (n i k : Nat), k < n →
    ring[(i + 31 * (k + 1)) % 32]? = some (some s) → ∃ j t, previousKilled ring n i = some j ∧ j < 32 ∧ ring[j]? = some (some t)
  | 0, i, k, hk, _ => by omega
  | n + 1, i, k, hk, hs => by
    rw [previousKilled]
    have hlt : (i + 31) % 32 < ring.length := by omega
    have h2 : ring[(i + 31) % 32]? = some ring[(i + 31) % 32] := by simp [hlt]
    cases hx : ring[(i + 31) % 32] with
    | some t => rw [h2, hx]; exact ⟨_, t, rfl, by omega, by rw [h2, hx]⟩
    | none =>
      rw [h2, hx]
      dsimp only
      cases k with
      | zero => exfalso; rw [show (i + 31 * (0 + 1)) % 32 = (i + 31) % 32 by omega, h2, hx] at hs; simp at hs
      | succ k => exact previousKilled_ok ring hl s n _ k (by omega) (by rw [show ((i + 31) % 32 + 31 * (k + 1)) % 32 = (i + 31 * (k + 1 + 1)) % 32 by omega]; exact hs)

/-- The range of the last put is in the line if `put-pop` would replace it. -/
def Poppable (st : St) : Prop :=
  (st.last.map (·.1) = some .putLeft ∨ st.last.map (·.1) = some .put ∨ st.last.map (·.1) = some .putBefore ∨
    st.last.map (·.1) = some .putPop ∧ st.popped = true) → st.ring[st.lastPut]? = some none ∨ st.putStart + st.putLen ≤ activeLength st

theorem putPop_ok {E : Env} {st : St} (h : Inv E st) (hm : Main st) (hp : Poppable st) (hn : 0 < getCount st.arg 1) :
    ∃ st', putPop st = some st' ∧ Saves E st.idx st st' ∧ (st.arg.motion = .move → st'.popped = true → Fresh st') := by
  rw [putPop]; split
  · rename_i hpn
    exact ⟨_, rfl, .alert h _, fun hh => by simp [isPending, hh] at hpn⟩
  · dsimp only
    split
    · have h1 : Inv E { st with popped := false } := h.of_same (by same) h.idx
      exact ⟨_, rfl, Or.inr ⟨.same h (by same) h.idx, rfl, rfl, rfl⟩, fun _ hh => by cases hh⟩
    · rename_i hlast
      have hrange : st.ring[st.lastPut]? ≠ some none ∧ st.putStart + st.putLen ≤ activeLength st := by
        have h1 : st.ring[st.lastPut]? ≠ some none := fun hh => hlast (Or.inr hh)
        refine ⟨h1, ?_⟩
        have h2 : st.last.map (·.1) = some .putLeft ∨ st.last.map (·.1) = some .put ∨ st.last.map (·.1) = some .putBefore ∨
            st.last.map (·.1) = some .putPop ∧ st.popped = true := by
          apply Classical.byContradiction; intro hno
          apply hlast; left
          simp only [not_or, not_and] at hno
          refine ⟨hno.1, hno.2.1, hno.2.2.1, ?_⟩
          by_cases hpp : st.last.map (·.1) = some .putPop
          · right; have := hno.2.2.2 hpp; simpa using this
          · left; exact hpp
        rcases hp h2 with h3 | h3
        · exact absurd h3 h1
        · exact h3
      have h0 : Inv E { st with popped := true } := h.of_same (by same) h.idx
      obtain ⟨e, he, -⟩ := save_edit { st with popped := true }
      have h1 := h0.edited
      obtain ⟨s1, e1, i1, o1, z1⟩ := maybeSave_ok h1
      simp only [bind, Option.bind, e1]
      have hb : s1.buf = st.buf ∧ s1.idx = st.idx ∧ s1.mainLen = st.mainLen ∧ s1.arg = st.arg ∧ s1.entry = st.entry ∧ s1.ring = st.ring ∧
          s1.lastPut = st.lastPut ∧ s1.putStart = st.putStart ∧ s1.putLen = st.putLen ∧ s1.cur = st.cur := by
        rw [o1.buf, o1.idx, o1.mainLen, o1.arg, o1.entry, o1.ring, o1.lastPut, o1.putStart, o1.putLen, o1.cur, he]
        exact ⟨rfl, rfl, rfl, rfl, rfl, rfl, rfl, rfl, rfl, rfl⟩
      obtain ⟨b1, b2, b3, b4, b5, b6, b7, b8, b9, b10⟩ := hb
      have hz : zip s1 = record (some st.idx) st := by rw [z1, he]; rfl
      have hm1 : Main s1 := by intro m hh; rw [b2]; exact hm m (b3 ▸ hh)
      have hc := same_clear s1
      have hci := clear_idx s1
      have hcb : (clearPrediction s1).buf = s1.buf.take (activeLength s1) := clear_buf s1 i1.idx hm1
      have i2 : Inv E (clearPrediction s1) := i1.clear hm1
      have hput : (clearPrediction s1).putStart = st.putStart ∧ (clearPrediction s1).putLen = st.putLen ∧ (clearPrediction s1).arg = st.arg := by
        rw [clearPrediction]; split <;> exact ⟨b8, b9, b4⟩
      have hact : activeLength s1 = activeLength st := by simp only [activeLength, b1, b2, b3]
      have hlen : st.putStart + st.putLen ≤ (clearPrediction s1).buf.length := by
        rw [hcb, List.length_take, hact, b1]
        have := active_bounds st h.idx
        have := hrange.2
        omega
      have hrl := i2.ringLen
      have hlp := i2.put
      have hsome : ∃ s, (clearPrediction s1).ring[(clearPrediction s1).lastPut]? = some (some s) := by
        have h2 : (clearPrediction s1).ring[(clearPrediction s1).lastPut]? = some (clearPrediction s1).ring[(clearPrediction s1).lastPut] := by simp
        have h3 : (clearPrediction s1).ring[(clearPrediction s1).lastPut]? ≠ some none := by rw [hc.ring, hc.lastPut, b6, b7]; exact hrange.1
        rw [h2] at h3 ⊢
        cases hx : (clearPrediction s1).ring[(clearPrediction s1).lastPut] with
        | none => rw [hx] at h3; exact absurd rfl h3
        | some s => exact ⟨s, rfl⟩
      obtain ⟨s, hs⟩ := hsome
      obtain ⟨j, t, hj, hj32, ht⟩ := previousKilled_ok (clearPrediction s1).ring hrl s 32 (clearPrediction s1).lastPut 31 (by omega)
        (by rw [show ((clearPrediction s1).lastPut + 31 * (31 + 1)) % 32 = (clearPrediction s1).lastPut by omega]; exact hs)
      rw [hj]
      dsimp only
      generalize clearPrediction s1 = s5 at *
      rw [if_neg (by omega)]
      have i3 : Inv E { s5 with buf := removeAt s5.buf s5.putStart s5.putLen, idx := s5.putStart } :=
        i2.of_same (by same) (by simp only [removeAt_length]; omega)
      obtain ⟨s2, e2, i4, u2, f2, m2⟩ := insertKilled_ok i3 (Main.of_none hci.2) false false j t hj32 ht (by
        show 0 < getCount s5.arg 1
        rw [hput.2.2]; exact hn)
      refine ⟨s2, e2, Or.inl ⟨i4, u2.entry.trans (hc.entry.trans b5), ?_, u2.cur.trans (hc.cur.trans b10)⟩, fun _ _ => Or.inr ⟨f2, m2⟩⟩
      rw [u2.zip, ← hz]
      exact (SameUndo.mk hc.undo hc.undoIndex hc.undoEntry hc.undoSave hc.entry hc.value hc.cur).zip

end Yash.Edit
