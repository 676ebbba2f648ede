import Verif.Edit.Commands4
/-! # Every command keeps the invariant -/
set_option autoImplicit false

namespace Yash.Edit
open Spec

/-- The line is recorded before it is changed. -/
def Undoable (i : Nat) (st st' : St) : Prop :=
  st'.entry = st.entry ∧ (zip st' = (zip st).snap (i, st.buf.take (activeLength st)) ∨
    zip st' = zip st ∧ st'.buf = st.buf ∧ st'.idx = st.idx ∧ st'.mainLen = st.mainLen ∨
    st'.mainLen = none ∧ ∃ y, zip st' = ((zip st).snap (i, st.buf.take (activeLength st))).snap (y, st'.buf))

theorem Saves.undoable {E : Env} {i : Nat} {st st' : St} (s : Saves E i st st') : Undoable i st st' := by
  rcases s with o | ⟨o, h⟩
  · exact ⟨o.entry, Or.inl o.zip⟩
  · exact ⟨o.entry, Or.inr (Or.inl ⟨o.zip, h⟩)⟩

theorem Twice.undoable {E : Env} {st st' : St} (s : Twice E st st') : Undoable st.idx st st' :=
  ⟨s.2.1, Or.inr (Or.inr ⟨s.2.2.1, s.2.2.2.2⟩)⟩

/-- What holds after a command. -/
structure Ran (E : Env) (cmd : Cmd) (st st' : St) : Prop where
  inv : Inv E st'
  cur : st'.cur = st.cur ∨ cmd = .expectChar ∧ ∃ f d, st'.cur = some (.charFunc f, d)
  recd : cmd ≠ .redo → (Records st cmd ∨ (∃ m, cmd = .delete m) ∧ ¬Again st) → Undoable (cursorBefore st cmd) st st'
  put : cmd = .put ∨ cmd = .putBefore ∨ cmd = .putLeft → st.arg.motion = .move → Fresh st'
  pop : cmd = .putPop → st.arg.motion = .move → st'.popped = true → Fresh st'

/-- A command that is not about killed text. -/
def NoPut (cmd : Cmd) : Prop := cmd ≠ .put ∧ cmd ≠ .putBefore ∧ cmd ≠ .putLeft ∧ cmd ≠ .putPop

theorem Ran.saves {E : Env} {cmd : Cmd} {st st' : St} (hn : NoPut cmd) (s : Saves E (cursorBefore st cmd) st st') : Ran E cmd st st' := by
  obtain ⟨saved, o⟩ := s.out
  refine ⟨o.inv, Or.inl o.cur, fun _ _ => s.undoable, ?_, fun hc => absurd hc hn.2.2.2⟩
  intro hc
  rcases hc with hc | hc | hc
  · exact absurd hc hn.1
  · exact absurd hc hn.2.1
  · exact absurd hc hn.2.2.1

theorem Ran.not {E : Env} {cmd : Cmd} {st st' : St} (hn : NoPut cmd) (i : Inv E st') (c : st'.cur = st.cur) (hr : ¬Records st cmd ∧ ∀ m, cmd = .delete m → Again st) : Ran E cmd st st' := by
  refine ⟨i, Or.inl c, fun _ h => ?_, ?_, fun hc => absurd hc hn.2.2.2⟩
  · rcases h with h | ⟨⟨m, h⟩, h'⟩
    · exact absurd h hr.1
    · exact absurd (hr.2 m h) h'
  intro hc
  rcases hc with hc | hc | hc
  · exact absurd hc hn.1
  · exact absurd hc hn.2.1
  · exact absurd hc hn.2.2.1

/-- A command that moves, when it is not backspace after backspace. -/
theorem Ran.moved {E : Env} {cmd : Cmd} {st st' : St} (hn : NoPut cmd) (hi : cursorBefore st cmd = st.idx) (m : Moved E st st')
    (hr : Again st → ¬Records st cmd) : Ran E cmd st st' := by
  rcases m with s | ⟨o, a⟩
  · exact .saves hn (by rw [hi]; exact s)
  · exact .not hn o.inv o.cur ⟨hr a, fun _ _ => a⟩

theorem again_not {cmd : Cmd} {d : Char} {st : St} (hc : st.cur = some (cmd, d)) (hn : cmd ≠ .delete .backwardChar) : ¬Again st := by
  rintro ⟨h, -⟩
  rw [hc] at h
  simp only [Option.map_some, Option.some.injEq] at h
  exact hn h

theorem again_not' {cmd : Cmd} {d : Char} {st : St} (hc : st.cur = some (cmd, d) ∨ st.cur = some (.redo, d)) (hn : cmd ≠ .delete .backwardChar) : ¬Again st := by
  rcases hc with hc | hc
  · exact again_not hc hn
  · exact again_not hc (by intro h; cases h)

theorem base_ok {E : Env} (hE : E.Ok) {st : St} (h : Inv E st) (hm : Main st) (hp : Poppable st) (cmd : Cmd) (c d : Char) (hr : cmd ≠ .redo)
    (hc : st.cur = some (cmd, d) ∨ st.cur = some (.redo, d))
    (hn : cmd = .put ∨ cmd = .putBefore ∨ cmd = .putLeft ∨ cmd = .putPop → 0 < getCount st.arg 1) :
    ∃ st', base E cmd c st = some st' ∧ Ran E cmd st st' := by
  have plain : ∀ cmd, NoPut cmd → cursorBefore st cmd = st.idx → ∀ st', (∃ saved, saved = none ∧ Out E saved st st') → st'.buf = st.buf → st'.idx = st.idx →
      st'.mainLen = st.mainLen → Ran E cmd st st' := by
    intro cmd hn hi st' ⟨saved, hs, o⟩ hb hx hml
    subst hs
    exact .saves hn (by rw [hi]; exact Or.inr ⟨o, hb, hx, hml⟩)
  have hdig : (digit c st).buf = st.buf ∧ (digit c st).idx = st.idx ∧ (digit c st).mainLen = st.mainLen := by
    rw [digit]
    repeat' split
    all_goals exact ⟨rfl, rfl, rfl⟩
  have heof : (eof st).buf = st.buf ∧ (eof st).idx = st.idx ∧ (eof st).mainLen = st.mainLen := by
    rw [eof]
    repeat' split
    all_goals exact ⟨rfl, rfl, rfl⟩
  cases cmd with
  | noop => exact ⟨_, rfl, plain _ (by simp [NoPut]) rfl _ ⟨_, rfl, .same h (same_reset st) h.idx⟩ rfl rfl rfl⟩
  | redraw => exact ⟨_, rfl, plain _ (by simp [NoPut]) rfl _ ⟨_, rfl, .same h (same_reset st) h.idx⟩ rfl rfl rfl⟩
  | alert => exact ⟨_, rfl, plain _ (by simp [NoPut]) rfl _ ⟨_, rfl, .alert h⟩ rfl rfl rfl⟩
  | selfInsert => exact ⟨_, rfl, .not (by simp [NoPut]) (selfInsert_ok h hm c).inv (selfInsert_ok h hm c).cur (by simp [Records])⟩
  | insertTab => exact ⟨_, rfl, .not (by simp [NoPut]) (selfInsert_ok h hm _).inv (selfInsert_ok h hm _).cur (by simp [Records])⟩
  | digit => exact ⟨_, rfl, plain _ (by simp [NoPut]) rfl _ ⟨_, rfl, digit_ok h c⟩ hdig.1 hdig.2.1 hdig.2.2⟩
  | bolOrDigit =>
    rw [base]
    split
    · obtain ⟨st', he, hmv⟩ := doMotion_ok hE h hm .beginningOfLine
      exact ⟨st', he, .moved (by simp [NoPut]) rfl hmv (fun ha => absurd ha (again_not' hc (by simp)))⟩
    · exact ⟨_, rfl, plain _ (by simp [NoPut]) rfl _ ⟨_, rfl, digit_ok h c⟩ hdig.1 hdig.2.1 hdig.2.2⟩
  | acceptLine =>
    refine ⟨_, rfl, plain _ (by simp [NoPut]) rfl _ ⟨_, rfl, acceptLine_ok h⟩ ?_ ?_ ?_⟩ <;> rw [acceptLine] <;> split <;> rfl
  | acceptWithHash => exact ⟨_, rfl, .not (by simp [NoPut]) (acceptWithHash_ok h).inv (acceptWithHash_ok h).cur (by simp [Records])⟩
  | acceptPrediction =>
    rw [base]
    have o := acceptLine_ok (E := E) h
    split
    · exact ⟨_, rfl, .not (by simp [NoPut]) (o.inv.of_same (by same) o.inv.idx) o.cur (by simp [Records])⟩
    · exact ⟨_, rfl, .not (by simp [NoPut]) o.inv o.cur (by simp [Records])⟩
  | eof => exact ⟨_, rfl, plain _ (by simp [NoPut]) rfl _ ⟨_, rfl, eof_ok h⟩ heof.1 heof.2.1 heof.2.2⟩
  | eofIfEmpty =>
    rw [base]
    split
    · exact ⟨_, rfl, plain _ (by simp [NoPut]) rfl _ ⟨_, rfl, eof_ok h⟩ heof.1 heof.2.1 heof.2.2⟩
    · exact ⟨_, rfl, plain _ (by simp [NoPut]) rfl _ ⟨_, rfl, .alert h⟩ rfl rfl rfl⟩
  | eofOrDelete =>
    rw [base]
    split
    · exact ⟨_, rfl, plain _ (by simp [NoPut]) rfl _ ⟨_, rfl, eof_ok h⟩ heof.1 heof.2.1 heof.2.2⟩
    · obtain ⟨st', he, hmv⟩ := execOn_ok hE h hm (if st.arg.sign = 0 then { delete := true } else .kill) .forwardChar
      exact ⟨st', he, .moved (by simp [NoPut]) rfl hmv (fun ha => absurd ha (again_not' hc (by simp)))⟩
  | setMode m =>
    obtain ⟨st', he, s⟩ := setMode_ok h m false
    exact ⟨st', he, .saves (by simp [NoPut]) s⟩
  | viReplace =>
    obtain ⟨st', he, s⟩ := setMode_ok h .viInsert true
    exact ⟨st', he, .saves (by simp [NoPut]) s⟩
  | expectChar =>
    rw [base]
    split
    · exact ⟨_, rfl, plain _ (by simp [NoPut]) rfl _ ⟨_, rfl, .alert h⟩ rfl rfl rfl⟩
    · rename_i f hf
      have h1 : Inv E { st with cur := some (.charFunc f, c) } := { h with }
      obtain ⟨st', he, hh⟩ := charFunc_ok h1 hm f (fun hne => ⟨_, _, rfl, Or.inr (Or.inr (Or.inr ⟨f, rfl, hne⟩))⟩) c
      refine ⟨st', he, ?_⟩
      rcases hh with ⟨hne, hmv⟩ | ⟨o, heq⟩
      · rcases hmv with s | ⟨o, a⟩
        · obtain ⟨saved, o⟩ := s.out
          exact ⟨o.inv, Or.inr ⟨rfl, f, c, o.cur⟩, fun _ _ => s.undoable, by simp, by simp⟩
        · exact absurd a (again_not (cmd := .charFunc f) (d := c) rfl (by simp))
      · exact ⟨o.inv, Or.inr ⟨rfl, f, c, o.cur⟩, fun _ hrec => hrec.elim (fun hrec => absurd (by rw [hf, heq]) hrec) (fun ⟨⟨m, hm⟩, _⟩ => by cases hm), by simp, by simp⟩
  | abortExpectChar =>
    rw [base]
    split
    · exact ⟨_, rfl, plain _ (by simp [NoPut]) rfl _ ⟨_, rfl, .alert h⟩ rfl rfl rfl⟩
    · exact ⟨_, rfl, plain _ (by simp [NoPut]) rfl _ ⟨_, rfl, .same h (by same) h.idx⟩ rfl rfl rfl⟩
  | motion m =>
    obtain ⟨st', he, hmv⟩ := doMotion_ok hE h hm m
    exact ⟨st', he, .moved (by simp [NoPut]) rfl hmv (fun ha => absurd ha (again_not' hc (by simp)))⟩
  | char f =>
    have key : ∃ st', (do let st ← maybeSave st; some (expect f st)) = some st' ∧ Ran E (.char f) st st' := by
      obtain ⟨s1, e1, i1, o1, z1⟩ := maybeSave_ok h
      rw [e1]
      refine ⟨_, rfl, .saves (by simp [NoPut]) (Saves.of o1 z1 (i1.of_same (by same) ?_) ⟨rfl, rfl, rfl, rfl, rfl, rfl, rfl⟩)⟩
      exact i1.idx
    cases f with
    | viReplaceChar =>
      rw [base]
      split
      · exact ⟨_, rfl, plain _ (by simp [NoPut]) rfl _ ⟨_, rfl, .alert h⟩ rfl rfl rfl⟩
      · exact ⟨_, rfl, plain _ (by simp [NoPut]) rfl _ ⟨_, rfl, .same h (by same) h.idx⟩ rfl rfl rfl⟩
    | _ => exact key
  | charFunc f =>
    obtain ⟨st', he, hh⟩ := charFunc_ok h hm f (fun hne => by
      rcases hc with hc | hc
      · exact ⟨_, _, hc, Or.inr (Or.inr (Or.inr ⟨f, rfl, hne⟩))⟩
      · exact ⟨_, _, hc, Or.inr (Or.inr (Or.inl rfl))⟩) c
    refine ⟨st', he, ?_⟩
    rcases hh with ⟨hne, hmv⟩ | ⟨o, heq⟩
    · exact .moved (by simp [NoPut]) rfl hmv (fun ha => absurd ha (again_not' hc (by simp)))
    · exact .not (by simp [NoPut]) o.inv o.cur (by simp [Records, heq])
  | refind =>
    rw [base]
    split
    · rename_i f e hf
      obtain ⟨st', he, hh⟩ := charFunc_ok h hm f (fun hne => by
        rcases hc with hc | hc
        · exact ⟨_, _, hc, Or.inl rfl⟩
        · exact ⟨_, _, hc, Or.inr (Or.inr (Or.inl rfl))⟩) e
      refine ⟨st', he, ?_⟩
      rcases hh with ⟨hne, hmv⟩ | ⟨o, heq⟩
      · exact .moved (by simp [NoPut]) rfl hmv (fun ha => absurd ha (again_not' hc (by simp)))
      · obtain ⟨g, hg, hg'⟩ := h.find _ _ hf
        cases hg; exact absurd heq hg'
    · rename_i x hx hf
      obtain ⟨g, hg, hg'⟩ := h.find x.1 x.2 hf
      exact absurd (by rw [← hg]) (hx g x.2)
    · exact ⟨_, rfl, plain _ (by simp [NoPut]) rfl _ ⟨_, rfl, .alert h⟩ rfl rfl rfl⟩
  | refindRev =>
    rw [base]
    split
    · rename_i f e hf
      dsimp only
      generalize (if st.arg.sign = 0 then { st.arg with sign := -1, abs := 1 } else { st.arg with sign := if st.arg.sign ≥ 0 then -1 else 1 } : Arg) = a
      have h1 : Inv E { st with arg := a } := { h with }
      obtain ⟨st', he, hh⟩ := charFunc_ok h1 hm f (fun hne => by
        rcases hc with hc | hc
        · exact ⟨_, _, hc, Or.inr (Or.inl rfl)⟩
        · exact ⟨_, _, hc, Or.inr (Or.inr (Or.inl rfl))⟩) e
      refine ⟨st', he, ?_⟩
      rcases hh with ⟨hne, hmv⟩ | ⟨o, heq⟩
      · exact .moved (by simp [NoPut]) rfl (hmv.shift rfl rfl rfl rfl rfl rfl rfl) (fun ha => absurd ha (again_not' hc (by simp)))
      · obtain ⟨g, hg, hg'⟩ := h.find _ _ hf
        cases hg; exact absurd heq hg'
    · rename_i x hx hf
      obtain ⟨g, hg, hg'⟩ := h.find x.1 x.2 hf
      exact absurd (by rw [← hg]) (hx g x.2)
    · exact ⟨_, rfl, plain _ (by simp [NoPut]) rfl _ ⟨_, rfl, .alert h⟩ rfl rfl rfl⟩
  | delete m =>
    obtain ⟨st', he, hmv⟩ := execOn_ok hE h hm (if st.arg.sign = 0 then { delete := true } else .kill) m
    refine ⟨st', he, .moved (by simp [NoPut]) rfl hmv ?_⟩
    intro ⟨hcur, hlast⟩
    rcases hc with hc | hc
    · rw [hc] at hcur
      simp only [Option.map_some, Option.some.injEq, Cmd.delete.injEq] at hcur
      simp [Records, hcur, hlast]
    · rw [hc] at hcur
      simp at hcur
  | onMotion f m =>
    obtain ⟨st', he, hmv⟩ := execOn_ok hE h hm f m
    exact ⟨st', he, .moved (by simp [NoPut]) rfl hmv (fun ha => absurd ha (again_not' hc (by simp)))⟩
  | onLine f =>
    obtain ⟨st', he, s⟩ := execOnLine_ok h hm f
    exact ⟨st', he, .saves (by simp [NoPut]) s⟩
  | pending f =>
    obtain ⟨st', he, s⟩ := setPending_ok h hm f
    exact ⟨st', he, .saves (by simp [NoPut]) s⟩
  | viAppend =>
    have h1 : Inv E (resetCount st) := { h with }
    obtain ⟨st', he, hmv⟩ := execOn_ok hE h1 hm { insert := true, toStart := true, toEnd := true } .forwardChar
    exact ⟨st', he, .moved (by simp [NoPut]) rfl (hmv.shift rfl rfl rfl rfl rfl rfl rfl) (fun ha => absurd ha (again_not' hc (by simp)))⟩
  | putBefore =>
    obtain ⟨st', he, s, hf⟩ := putKilled_ok h hm false true (hn (by simp))
    obtain ⟨saved, o⟩ := s.out
    exact ⟨st', he, o.inv, Or.inl o.cur, fun _ _ => s.undoable, fun _ => hf, by simp⟩
  | put =>
    obtain ⟨st', he, s, hf⟩ := putKilled_ok h hm true true (hn (by simp))
    obtain ⟨saved, o⟩ := s.out
    exact ⟨st', he, o.inv, Or.inl o.cur, fun _ _ => s.undoable, fun _ => hf, by simp⟩
  | putLeft =>
    obtain ⟨st', he, s, hf⟩ := putKilled_ok h hm false false (hn (by simp))
    obtain ⟨saved, o⟩ := s.out
    exact ⟨st', he, o.inv, Or.inl o.cur, fun _ _ => s.undoable, fun _ => hf, by simp⟩
  | putPop =>
    obtain ⟨st', he, s, hf⟩ := putPop_ok h hm hp (hn (by simp))
    obtain ⟨saved, o⟩ := s.out
    exact ⟨st', he, o.inv, Or.inl o.cur, fun _ _ => s.undoable, by simp, fun _ => hf⟩
  | undo =>
    obtain ⟨st', he, i, -, -, -, -, -, -, hcu⟩ := cancelUndo_ok h hm (-getCount st.arg 1)
    exact ⟨st', he, .not (by simp [NoPut]) i hcu (by simp [Records])⟩
  | undoAll =>
    obtain ⟨st', he, i, -, -, -, -, -, -, hcu⟩ := cancelUndo_ok h hm (-countMax)
    exact ⟨st', he, .not (by simp [NoPut]) i hcu (by simp [Records])⟩
  | cancelUndo =>
    obtain ⟨st', he, i, -, -, -, -, -, -, hcu⟩ := cancelUndo_ok h hm (getCount st.arg 1)
    exact ⟨st', he, .not (by simp [NoPut]) i hcu (by simp [Records])⟩
  | cancelUndoAll =>
    obtain ⟨st', he, i, -, -, -, -, -, -, hcu⟩ := cancelUndo_ok h hm countMax
    exact ⟨st', he, .not (by simp [NoPut]) i hcu (by simp [Records])⟩
  | redo => exact absurd rfl hr
  | appendLastBigword =>
    obtain ⟨st', he, s | t⟩ := appendLastBigword_ok h hm
    · exact ⟨st', he, .saves (by simp [NoPut]) s⟩
    · exact ⟨st', he, t.1, Or.inl t.2.2.2.1, fun _ _ => t.undoable, by simp, by simp⟩
  | transposeChars =>
    obtain ⟨st', he, s⟩ := transposeChars_ok h
    exact ⟨st', he, .saves (by simp [NoPut]) s⟩
  | transposeWords =>
    obtain ⟨st', he, s⟩ := transposeWords_ok h
    exact ⟨st', he, .saves (by simp [NoPut]) s⟩
  | capitalizeWord =>
    obtain ⟨st', he, s⟩ := capitalizeWord_ok h
    exact ⟨st', he, .saves (by simp [NoPut]) s⟩
  | deleteHorizontalSpace =>
    obtain ⟨st', he, s⟩ := replaceSpace_ok h (st.arg.sign = 0) []
    exact ⟨st', he, .saves (by simp [NoPut]) s⟩
  | justOneSpace =>
    rw [base]
    rw [justOneSpace]
    generalize List.replicate _ ' ' = t
    obtain ⟨st', he, s⟩ := replaceSpace_ok h true t
    exact ⟨st', he, .saves (by simp [NoPut]) s⟩
  | history e p =>
    obtain ⟨st', he, i, hcu⟩ := historyAbsolute_ok hE h hm e p
    exact ⟨st', he, .not (by simp [NoPut]) i hcu (by simp [Records])⟩
  | nextHistory p =>
    obtain ⟨st', he, i, hcu⟩ := historyRelative_ok h hm (getCount st.arg 1) p
    exact ⟨st', he, .not (by simp [NoPut]) i hcu (by simp [Records])⟩
  | prevHistory p =>
    obtain ⟨st', he, i, hcu⟩ := historyRelative_ok h hm (-getCount st.arg 1) p
    exact ⟨st', he, .not (by simp [NoPut]) i hcu (by simp [Records])⟩
  | beginningSearch f =>
    obtain ⟨st', he, i, hcu⟩ := beginningSearch_ok h hm f
    exact ⟨st', he, .not (by simp [NoPut]) i hcu (by simp [Records])⟩

end Yash.Edit
