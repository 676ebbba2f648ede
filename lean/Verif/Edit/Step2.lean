import Verif.Edit.Step
/-! # What holds between two commands -/
set_option autoImplicit false

namespace Yash.Edit
open Spec

/-- `exec` after the command is determined. -/
theorem exec_ok {E : Env} (hE : E.Ok) {st : St} (h : Inv E st) (hm : Main st) (hp : Poppable st) (cmd : Cmd) (c : Char)
    (hc : st.cur = some (cmd, c)) (hcar : Careful st cmd) :
    ∃ st', exec E cmd c st = some st' ∧ Inv E st' ∧ (st'.cur = st.cur ∨ ∃ f d, st'.cur = some (.charFunc f, d)) ∧
      (Records st cmd → Undoable (cursorBefore st cmd) st st') ∧
      (cmd = .put ∨ cmd = .putBefore ∨ cmd = .putLeft → Fresh st') ∧ (cmd = .putPop → st'.popped = true → Fresh st') := by
  by_cases hr : cmd = .redo
  · subst hr
    have hal : Saves E st.idx st (alert st) := .alert h _
    have halt : ∃ st', some (alert st) = some st' ∧ Inv E st' ∧ (st'.cur = st.cur ∨ ∃ f d, st'.cur = some (.charFunc f, d)) ∧
        (Records st .redo → Undoable (cursorBefore st .redo) st st') ∧
        (Cmd.redo = .put ∨ Cmd.redo = .putBefore ∨ Cmd.redo = .putLeft → Fresh st') ∧ (Cmd.redo = .putPop → st'.popped = true → Fresh st') :=
      ⟨_, rfl, h.alert, Or.inl rfl, fun _ => ⟨rfl, Or.inr (Or.inl ⟨rfl, rfl, rfl, rfl⟩)⟩, by simp, by simp⟩
    rw [exec]
    split
    · exact halt
    · split
      · exact halt
      · rename_i f d a hle
        dsimp only
        have hcr := hcar f d a hle
        generalize (if st.arg.sign ≠ 0 then { a with sign := st.arg.sign, abs := st.arg.abs, multiplier := st.arg.multiplier } else a : Arg) = a' at hcr
        have hf := h.edit f d a hle
        have h1 : Inv E { st with lastEdit := some ((f, d), a'), arg := a' } := { h with edit := (by
          intro c' d' a'' hh
          simp only [Option.some.injEq, Prod.mk.injEq] at hh
          rw [← hh.1.1]; exact hf) }
        obtain ⟨st', he, r⟩ := base_ok hE h1 hm hp f d c hf (Or.inr hc) hcr
        refine ⟨st', he, r.inv, ?_, ?_, by simp, by simp⟩
        · rcases r.cur with hcu | ⟨hx, g, e, hcu⟩
          · exact Or.inl hcu
          · exact Or.inr ⟨g, e, hcu⟩
        · intro hrec
          have hrec' := hrec f d a hle
          have hidx : cursorBefore st .redo = cursorBefore { st with lastEdit := some ((f, d), a'), arg := a' } f := by
            rw [cursorBefore, hle]
            cases f <;> first | rfl | exact absurd rfl hf
          have hrr : Records { st with lastEdit := some ((f, d), a'), arg := a' } f ∨
              (∃ m, f = .delete m) ∧ ¬Again { st with lastEdit := some ((f, d), a'), arg := a' } := by
            have hag : ¬Again { st with lastEdit := some ((f, d), a'), arg := a' } := again_not (cmd := .redo) (d := c) hc (by simp)
            cases f <;> first
              | exact Or.inr ⟨⟨_, rfl⟩, hag⟩
              | exact absurd rfl hf
              | exact Or.inl trivial
              | exact Or.inl hrec'
              | exact hrec'.elim
          rw [hidx]
          exact r.recd hf hrr
  · have hb : exec E cmd c st = base E cmd c st := by
      cases cmd <;> first | rfl | exact absurd rfl hr
    rw [hb]
    obtain ⟨st', he, r⟩ := base_ok hE h hm hp cmd c c hr (Or.inl hc) (by
      rintro (rfl | rfl | rfl | rfl) <;> exact hcar.2)
    refine ⟨st', he, r.inv, ?_, fun hrec => r.recd hr (Or.inl hrec), ?_, ?_⟩
    · rcases r.cur with hcu | ⟨-, hcu⟩
      · exact Or.inl hcu
      · exact Or.inr hcu
    · intro hx
      refine r.put hx ?_
      rcases hx with rfl | rfl | rfl <;> exact hcar.1
    · intro hx
      refine r.pop hx ?_
      subst hx; exact hcar.1

/-- The line as it was typed. -/
theorem text_eq {st : St} (h : st.idx ≤ st.buf.length) : text st = st.buf.take (activeLength st) := by
  rw [text, activeLength]
  cases st.mainLen with
  | none => simp
  | some m =>
    dsimp only
    split
    · rw [List.take_length, List.take_of_length_le (by omega)]
    · split
      · rw [Nat.max_eq_right (by omega)]
      · rw [Nat.max_eq_left (by omega)]

/-- What `le_invoke_command` does after the command. -/
def finish (E : Env) (st : St) : St :=
  let st := extendMain st.idx { st with last := st.cur }
  let st := match st.state with
    | .editing =>
      match E.predict with
      | some f => updatePrediction E f st
      | none => st
    | _ => clearPrediction st
  if st.mode = .viCommand ∧ st.idx > 0 ∧ st.idx = st.buf.length then { st with idx := st.idx - 1 } else st

theorem invoke_eq (E : Env) (cmd : Cmd) (c : Char) (st : St) :
    invoke E cmd c st = (exec E cmd c { st with cur := some (cmd, c) }).map (finish E) := by
  rw [invoke]
  cases exec E cmd c { st with cur := some (cmd, c) } <;> rfl

/-- What the update of the prediction keeps. -/
structure Kept (a b : St) : Prop where
  same : Same a b
  last : a.last = b.last
  popped : a.popped = b.popped
  putStart : a.putStart = b.putStart
  putLen : a.putLen = b.putLen
  mode : a.mode = b.mode
  arg : a.arg = b.arg
  state : a.state = b.state
  overwrite : a.overwrite = b.overwrite

theorem Kept.refl (a : St) : Kept a a := ⟨Same.refl a, rfl, rfl, rfl, rfl, rfl, rfl, rfl, rfl⟩
theorem Kept.trans {a b c : St} (h : Kept a b) (h' : Kept b c) : Kept a c :=
  ⟨h.1.trans h'.1, h.2.trans h'.2, h.3.trans h'.3, h.4.trans h'.4, h.5.trans h'.5, h.6.trans h'.6, h.7.trans h'.7, h.8.trans h'.8, h.9.trans h'.9⟩

theorem kept_clear (st : St) : Kept (clearPrediction st) st := by
  refine ⟨same_clear st, ?_, ?_, ?_, ?_, ?_, ?_, ?_, ?_⟩ <;> rw [clearPrediction] <;> split <;> rfl

theorem kept_extend (n : Nat) (st : St) : Kept (extendMain n st) st := by
  refine ⟨same_extend n st, ?_, ?_, ?_, ?_, ?_, ?_, ?_, ?_⟩ <;> (rw [extendMain]; split; rfl; split <;> rfl)

/-- The part of the line that is not a prediction stays. -/
theorem clear_text {st : St} (h : st.idx ≤ st.buf.length) (hm : Main st) :
    (clearPrediction st).idx = st.idx ∧ Main (clearPrediction st) ∧ (clearPrediction st).idx ≤ (clearPrediction st).buf.length ∧
      (clearPrediction st).buf.take (activeLength (clearPrediction st)) = st.buf.take (activeLength st) ∧
      activeLength (clearPrediction st) = activeLength st ∧ (clearPrediction st).buf.length = activeLength st := by
  have hb := clear_buf st h hm
  have hc := clear_idx st
  have ha : activeLength (clearPrediction st) = (clearPrediction st).buf.length := by rw [activeLength, hc.2]
  have hab := active_bounds st h
  have hl : (clearPrediction st).buf.length = activeLength st := by rw [hb, List.length_take]; omega
  refine ⟨hc.1, main_clear st, by omega, ?_, by omega, hl⟩
  rw [ha, List.take_length, hb]

theorem update_text {E : Env} (f : List Char → List Char) {st : St} (h : st.idx ≤ st.buf.length) (hm : Main st) :
    Kept (updatePrediction E f st) st ∧ (updatePrediction E f st).idx = st.idx ∧ Main (updatePrediction E f st) ∧
      (updatePrediction E f st).idx ≤ (updatePrediction E f st).buf.length ∧
      (updatePrediction E f st).buf.take (activeLength (updatePrediction E f st)) = st.buf.take (activeLength st) ∧
      activeLength (updatePrediction E f st) = activeLength st := by
  obtain ⟨c1, c2, c3, c4, c5, c6⟩ := clear_text h hm
  have k := kept_clear st
  rw [updatePrediction]
  dsimp only
  generalize clearPrediction st = s at *
  generalize (if s.mode = .viCommand then s.idx + 1 else s.idx) = i
  split
  · exact ⟨k, c1, c2, c3, c4, c5⟩
  · split
    · exact ⟨k, c1, c2, c3, c4, c5⟩
    · have ha : activeLength { s with mainLen := some s.buf.length, buf := s.buf ++ f s.buf } = s.buf.length := by
        simp only [activeLength]
        rw [List.length_append]
        split
        · omega
        · split
          · omega
          · rfl
      refine ⟨⟨⟨k.same.1, k.same.2, k.same.3, k.same.4, k.same.5, k.same.6, k.same.7, k.same.8, k.same.9, k.same.10, k.same.11, k.same.12⟩, k.2, k.3, k.4, k.5, k.6, k.7, k.8, k.9⟩, c1, ?_, ?_, ?_, ?_⟩
      · intro m hm'
        simp only [Option.some.injEq] at hm'
        subst hm'
        exact c3
      · simp only [List.length_append]; omega
      · rw [ha, ← c4]
        simp only [List.take_append_of_le_length (Nat.le_refl _)]
        rw [c5, ← c6]
      · rw [ha]; exact c6

/-- What holds after `finish`. -/
structure Finished (E : Env) (st st' : St) : Prop where
  kept : Kept st' { st with last := st.cur }
  main : Main st'
  bound : st'.idx ≤ st'.buf.length
  text : text st' = st.buf.take (activeLength st)
  active : activeLength st' = activeLength st
  idx : st'.idx = st.idx ∨ st'.mode = .viCommand ∧ st.idx = (st.buf.take (activeLength st)).length ∧ 0 < st.idx ∧ st'.idx + 1 = st.idx

theorem finish_ok {E : Env} {st : St} (h : st.idx ≤ st.buf.length) : Finished E st (finish E st) := by
  have k0 : Kept (extendMain st.idx { st with last := st.cur }) { st with last := st.cur } := kept_extend _ _
  have b0 := extend_buf st.idx { st with last := st.cur }
  have m0 : Main (extendMain st.idx { st with last := st.cur }) := main_extend { st with last := st.cur }
  have a0 : activeLength (extendMain st.idx { st with last := st.cur }) = activeLength st := by
    rw [extendMain]
    dsimp only
    cases hml : st.mainLen with
    | none => simp [activeLength, hml]
    | some m =>
      dsimp only
      by_cases hlt : m < st.idx
      · rw [if_pos hlt]
        simp only [activeLength, hml]
        rw [if_neg (by omega), if_neg (by omega), if_neg (by omega), if_pos hlt]
      · rw [if_neg hlt]; simp [activeLength, hml]
  have key : ∃ s1, finish E st = (if s1.mode = .viCommand ∧ s1.idx > 0 ∧ s1.idx = s1.buf.length then { s1 with idx := s1.idx - 1 } else s1) ∧
      Kept s1 { st with last := st.cur } ∧ s1.idx = st.idx ∧ Main s1 ∧ s1.idx ≤ s1.buf.length ∧
      s1.buf.take (activeLength s1) = st.buf.take (activeLength st) ∧ activeLength s1 = activeLength st := by
    refine ⟨_, rfl, ?_⟩
    dsimp only at b0
    generalize extendMain st.idx { st with last := st.cur } = s0 at *
    have h0 : s0.idx ≤ s0.buf.length := by rw [b0.1, b0.2]; exact h
    have hc : Kept (clearPrediction s0) { st with last := st.cur } ∧ (clearPrediction s0).idx = st.idx ∧ Main (clearPrediction s0) ∧
        (clearPrediction s0).idx ≤ (clearPrediction s0).buf.length ∧
        (clearPrediction s0).buf.take (activeLength (clearPrediction s0)) = st.buf.take (activeLength st) ∧
        activeLength (clearPrediction s0) = activeLength st := by
      obtain ⟨c1, c2, c3, c4, c5, -⟩ := clear_text h0 m0
      exact ⟨(kept_clear s0).trans k0, c1.trans b0.2, c2, c3, by rw [c4, b0.1, a0], c5.trans a0⟩
    split
    · split
      · rename_i f _
        obtain ⟨u1, u2, u3, u4, u5, u6⟩ := update_text (E := E) f h0 m0
        exact ⟨u1.trans k0, u2.trans b0.2, u3, u4, by rw [u5, b0.1, a0], u6.trans a0⟩
      · exact ⟨k0, b0.2, m0, h0, by rw [b0.1, a0], a0⟩
    · exact hc
  obtain ⟨s1, he, k1, i1, m1, b1, t1, a1⟩ := key
  rw [he]
  have ab := active_bounds s1 b1
  split
  · rename_i hv
    have hi : s1.idx - 1 ≤ s1.buf.length := by omega
    have ha : activeLength { s1 with idx := s1.idx - 1 } = activeLength s1 := by
      simp only [activeLength]
      cases hml : s1.mainLen with
      | none => rfl
      | some m =>
        have := m1 m hml
        dsimp only
        split
        · rfl
        · rw [if_neg (by omega), if_neg (by omega)]
    refine ⟨⟨⟨k1.same.1, k1.same.2, k1.same.3, k1.same.4, k1.same.5, k1.same.6, k1.same.7, k1.same.8, k1.same.9, k1.same.10, k1.same.11, k1.same.12⟩, k1.2, k1.3, k1.4, k1.5, k1.6, k1.7, k1.8, k1.9⟩,
      ?_, hi, ?_, ha.trans a1, Or.inr ⟨hv.1, ?_, by omega, ?_⟩⟩
    · intro m hm
      have := m1 m hm
      dsimp only; omega
    · rw [text_eq hi, ha]; exact t1
    · rw [← t1, List.length_take]; omega
    · dsimp only; omega
  · exact ⟨k1, m1, b1, by rw [text_eq b1]; exact t1, a1, Or.inl i1⟩

end Yash.Edit
