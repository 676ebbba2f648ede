import Verif.Edit.Find
/-! # Looking for a character in the line (C76, C75) -/
set_option autoImplicit false

namespace Yash.Edit
open Spec Sample

/-- The state after a command that looks for a character. -/
theorem find_lands {E : Env} {st st' : St} (s : Session E st) {cmd : Cmd} {d c : Char} {n : Int} {till : Bool} (hs : Seeks st cmd d c n till)
    (hn : n ≠ 0) (hc : c ≠ '\x00') (h : invoke E cmd d st = some st') :
    ∃ s0 s1, Inv E s0 ∧ s0.buf = st.buf ∧ s0.idx = st.idx ∧ s0.mainLen = st.mainLen ∧ s0.arg.motion = st.arg.motion ∧ s0.overwrite = st.overwrite ∧
      s0.mode = st.saveMode ∧ s0.ring = st.ring ∧ s0.nextKill = st.nextKill ∧ Finished E s1 st' ∧
      ((∃ q, Occurs c st.buf st.idx n q ∧ execMotion E (stop till n q) (decide (stop till n q ≥ st.idx)) s0 = some s1) ∨
        (∀ q, ¬Occurs c st.buf st.idx n q) ∧ s1 = alert s0) := by
  have g := session_good s
  obtain ⟨x, a, hex, ha, hcar, hf⟩ := seeks_exec (E := E) hs
  obtain ⟨s1, st1, he, hi, g', f, -⟩ := invoke_ok g cmd d hcar
  rw [h] at hi
  have hi := Option.some.inj hi
  subst hi
  rw [hex] at he
  have h0 : Inv E { st with cur := some x, arg := a, mode := st.saveMode } := { g.inv with }
  obtain ⟨l, hl, h2⟩ := saveFind_ok h0 (show Finding { st with cur := some x, arg := a, mode := st.saveMode } from hf)
  refine ⟨saveFind { st with cur := some x, arg := a, mode := st.saveMode }, s1, h2, ?_⟩
  have := execFind_goes (st := { st with cur := some x, arg := a }) g.inv.idx hn hc he
  refine ⟨by rw [hl], by rw [hl], by rw [hl], by rw [hl]; exact ha, by rw [hl], by rw [hl], by rw [hl], by rw [hl], f, this⟩

/-! ## C76 -/

/-- A command that looks for a character goes to the occurrence of it that the count says, or next to it, and if there is none the cursor stays.
The line does not change, and the mode is again what it was when the command was given.  Left out: a count of zero. -/
theorem find_char_goes_partial {E : Env} {st st' : St} (s : Session E st) (cmd : Cmd) (d c : Char) (n : Int) (till : Bool) (hs : Seeks st cmd d c n till)
    (hn : n ≠ 0) (hc : c ≠ '\x00') (hm : st.arg.motion = .move) (h : invoke E cmd d st = some st') :
    ∃ r k, ((∃ q, Occurs c st.buf st.idx n q ∧ r = if till = false then q else if 0 < n then q - 1 else q + 1) ∨
        (∀ q, ¬Occurs c st.buf st.idx n q) ∧ r = st.idx) ∧
      (st'.idx = r ∨ st'.mode = .viCommand ∧ st'.idx + 1 = r ∧ r = (text st').length) ∧
      text st' = st.buf.take k ∧ (text st).length ≤ k ∧ k ≤ max (text st).length r ∧ st'.mode = st.saveMode := by
  have g := session_good s
  have hidx := g.inv.idx
  have hact := active_bounds st hidx
  have htl : (text st).length = activeLength st := by rw [text_eq hidx, List.length_take]; omega
  obtain ⟨s0, s1, i0, e1, e2, e3, e4, e5, e6, -, -, f, hx⟩ := find_lands s hs hn hc h
  rcases hx with ⟨q, ho, hx⟩ | ⟨hno, rfl⟩
  · have hq : q < st.buf.length := (List.getElem?_eq_some_iff.1 ho.1).1
    have hr : stop till n q ≤ s0.buf.length := by rw [e1, stop]; split <;> (try split) <;> omega
    obtain ⟨b1, b2, b3, b4⟩ := execMotion_move i0 hr (e4.trans hm) hx
    rw [e1] at hr b1
    rw [e3] at b3
    rw [e6] at b4
    have hact' : activeLength s1 = max (activeLength st) (stop till n q) ∨ activeLength s1 = activeLength st ∧ stop till n q ≤ activeLength st := by
      rw [activeLength, activeLength, b1, b2, b3]
      cases hml : st.mainLen with
      | none => right; exact ⟨rfl, hr⟩
      | some k =>
        have := g.main k hml
        dsimp only
        split
        · right; exact ⟨rfl, hr⟩
        · have hk : ¬k < st.idx := by omega
          simp only [hk, if_false]
          split
          · left; omega
          · left; omega
    refine ⟨stop till n q, activeLength s1, Or.inl ⟨q, ho, ?_⟩, ?_, by rw [f.text, b1], by omega, by omega, f.kept.mode.trans b4⟩
    · rw [stop]; cases till <;> simp
    · rcases f.idx with hy | ⟨y1, y2, y3, y4⟩
      · exact Or.inl (hy.trans b2)
      · exact Or.inr ⟨y1, by omega, by rw [f.text, ← y2, b2]⟩
  · refine ⟨st.idx, activeLength st, Or.inr ⟨hno, rfl⟩, ?_, ?_, by omega, by omega, f.kept.mode.trans e6⟩
    · rcases f.idx with hy | ⟨y1, y2, y3, y4⟩
      · exact Or.inl (hy.trans e2)
      · have e2' : (alert s0).idx = st.idx := e2
        exact Or.inr ⟨y1, by omega, by rw [f.text, ← y2, e2']⟩
    · rw [f.text]
      show s0.buf.take (activeLength (alert s0)) = _
      rw [active_congr (a := alert s0) (b := st) e1 e2 e3, e1]

/-- For instance, the second `o` before the cursor. -/
example : ∃ st st', Session env st ∧ Seeks st .expectChar 'o' 'o' (-2) false ∧ st.arg.motion = .move ∧ text st = "to foo bar".toList ∧ st.idx = 9 ∧
    invoke env .expectChar 'o' st = some st' ∧ st'.idx = 4 ∧ st'.mode = .viCommand :=
  ⟨run env true (type "to foo bar" ++ [key (.setMode .viCommand), (.digit, '2'), key (.char .findCharRev)]),
    run env true (type "to foo bar" ++ [key (.setMode .viCommand), (.digit, '2'), key (.char .findCharRev), (.expectChar, 'o')]),
    session ok true _ (by decide) (by decide +kernel), ⟨.findCharRev, Or.inl ⟨rfl, by decide +kernel, rfl, by decide +kernel⟩, by decide, by decide⟩,
    by decide +kernel, by decide +kernel, by decide +kernel, by decide +kernel, by decide +kernel, by decide +kernel⟩

/-- And then once more in the other direction. -/
example : ∃ st st', Session env st ∧ Seeks st .refindRev 'x' 'o' 1 false ∧ st.arg.motion = .move ∧ text st = "to foo bar".toList ∧ st.idx = 4 ∧
    invoke env .refindRev 'x' st = some st' ∧ st'.idx = 5 :=
  ⟨run env true (type "to foo bar" ++ [key (.setMode .viCommand), (.digit, '2'), key (.char .findCharRev), (.expectChar, 'o')]),
    run env true (type "to foo bar" ++ [key (.setMode .viCommand), (.digit, '2'), key (.char .findCharRev), (.expectChar, 'o'), (.refindRev, 'x')]),
    session ok true _ (by decide) (by decide +kernel),
    ⟨.findCharRev, Or.inr (Or.inr ⟨rfl, by decide +kernel, by decide +kernel, Or.inl (by decide +kernel)⟩), by decide, by decide⟩,
    by decide +kernel, by decide +kernel, by decide +kernel, by decide +kernel, by decide +kernel⟩

/-- What is missing in the theorem above: with a minus sign as the count, repeating the search in the other direction does not go anywhere,
although the first `o` after the cursor is at 4. -/
theorem refind_back_ignores_minus : ∃ st st', Session env st ∧ st.arg.motion = .move ∧ st.lastFind = some (.charFunc .findChar, 'o') ∧
    getCount st.arg 1 = -1 ∧ Occurs 'o' st.buf st.idx 1 4 ∧ invoke env .refindRev 'x' st = some st' ∧ st'.idx = st.idx ∧ st.idx = 2 :=
  ⟨run env false (type "oxoxo" ++ [key (.motion .beginningOfLine), key (.char .findChar), (.expectChar, 'o'), (.digit, '-')]),
    run env false (type "oxoxo" ++ [key (.motion .beginningOfLine), key (.char .findChar), (.expectChar, 'o'), (.digit, '-'), (.refindRev, 'x')]),
    session ok false _ (by decide) (by decide +kernel), by decide +kernel, by decide +kernel, by decide +kernel, by rw [Occurs]; decide +kernel,
    by decide +kernel, by decide +kernel, by decide +kernel⟩

/-! ## C75 -/

/-- An operator that deletes, with the motion to a character: what is between the cursor and the place the motion goes to is removed, and if the
motion goes forward the character there is removed as well.  If there is no such character, nothing is.  Left out: a count of zero, and going back
next to a character that is to the left of the cursor already (see `delete_back_till_deletes_char`). -/
theorem delete_to_char_partial {E : Env} {st st' : St} (s : Session E st) (cmd : Cmd) (d c : Char) (n : Int) (till : Bool) (hs : Seeks st cmd d c n till)
    (hn : n ≠ 0) (hc : c ≠ '\x00') (hd : st.arg.motion.delete = true) (hu : st.arg.motion.upper = false) (hl : st.arg.motion.lower = false)
    (hins : st.arg.motion.insert = false) (hov : st.overwrite = none) (hb : ∀ q, Occurs c st.buf st.idx n q → till = true → q + 1 ≠ st.idx)
    (h : invoke E cmd d st = some st') :
    (∃ q a b, Occurs c st.buf st.idx n q ∧
      (0 < n ∧ a = st.idx ∧ b = (if till then q else q + 1) ∨ n < 0 ∧ a = (if till then q + 1 else q) ∧ b = st.idx) ∧
      text st' = (text st).take a ++ (text st).drop b ∧
      (st'.idx = a ∨ st'.mode = .viCommand ∧ a = (text st').length ∧ st'.idx + 1 = a) ∧
      (st.arg.motion.copy = true → lastKilled st' = some ((st.buf.drop a).take (b - a))) ∧ st'.mode = st.saveMode) ∨
    (∀ q, ¬Occurs c st.buf st.idx n q) ∧ text st' = text st ∧ lastKilled st' = lastKilled st := by
  have g := session_good s
  have hidx := g.inv.idx
  obtain ⟨s0, s1, i0, e1, e2, e3, e4, e5, e6, e7, e8, f, hx⟩ := find_lands s hs hn hc h
  rcases hx with ⟨q, ho, hx⟩ | ⟨hno, rfl⟩
  · left
    have hq : q < st.buf.length := (List.getElem?_eq_some_iff.1 ho.1).1
    have hr : stop till n q ≤ s0.buf.length := by rw [e1, stop]; split <;> (try split) <;> omega
    have hmain : Main s0 := by intro m hm; rw [e3] at hm; rw [e2]; exact g.main m hm
    rw [← e4] at hd hu hl hins
    rw [← e5] at hov
    obtain ⟨b1, b2, b3, b4, b5, -, b6⟩ := execMotion_delete i0 hmain hr hd hu hl hov hx
    have b5 := b5 hins
    rw [active_congr e1 e2 e3, e1, e2] at b1
    rw [e1, e2] at b6
    rw [e2] at b2
    have hreg : ∃ a b, min st.idx (stop till n q) = a ∧ regionEnd (decide (stop till n q ≥ st.idx)) st.buf st.idx (stop till n q) = b ∧ a < b ∧ b ≤ st.buf.length ∧
        (0 < n ∧ a = st.idx ∧ b = (if till then q else q + 1) ∨ n < 0 ∧ a = (if till then q + 1 else q) ∧ b = st.idx) := by
      refine ⟨_, _, rfl, rfl, ?_⟩
      simp only [regionEnd, decide_eq_true_eq]
      rcases ho.2 with ⟨h1, h2, -⟩ | ⟨h1, h2, -⟩
      · cases till with
        | false =>
          simp only [stop, Bool.false_eq_true, if_false]
          rw [if_pos (by omega)]
          omega
        | true =>
          rw [show stop true n q = q - 1 by simp [stop, h1], if_pos (by omega)]
          simp only [if_true]
          omega
      · have h3 : ¬0 < n := by omega
        cases till with
        | false =>
          simp only [stop, Bool.false_eq_true, if_false]
          rw [if_neg (by omega)]
          omega
        | true =>
          have := hb q ho rfl
          simp only [stop, if_true, h3, if_false]
          rw [if_neg (by omega)]
          omega
    obtain ⟨a, b, ha, hb', hab, hbl, hdir⟩ := hreg
    rw [ha, hb'] at b1 b6
    rw [ha] at b2
    have ht : text st' = (text st).take a ++ (text st).drop b := by
      have hact : activeLength s1 = s1.buf.length := by rw [activeLength, b3]
      rw [f.text, hact, List.take_length, b1, removeAt, text_eq hidx, show a + (b - a) = b by omega]
    refine ⟨q, a, b, ho, hdir, ht, ?_, ?_, f.kept.mode.trans (b5.1.trans e6)⟩
    · rcases f.idx with hy | ⟨y1, y2, y3, y4⟩
      · exact Or.inl (hy.trans b2)
      · exact Or.inr ⟨y1, by rw [f.text, ← y2, b2], by omega⟩
    · intro hcp
      rw [← e4] at hcp
      have hne : region st.buf a b ≠ [] := by
        intro hnil
        have := congrArg List.length hnil
        simp only [region, List.length_take, List.length_drop, List.length_nil] at this
        omega
      have := b6 hcp hne
      rw [lastKilled, f.kept.same.ring, f.kept.same.nextKill]
      exact this
  · refine Or.inr ⟨hno, ?_, ?_⟩
    · rw [f.text]
      show s0.buf.take (activeLength (alert s0)) = _
      rw [active_congr (a := alert s0) (b := st) e1 e2 e3, e1, text_eq hidx]
    · rw [lastKilled, f.kept.same.ring, f.kept.same.nextKill, lastKilled, ← e7, ← e8]
      rfl

/-- For instance, `d2fo` in vi mode. -/
example : ∃ st st', Session env st ∧ Seeks st .expectChar 'o' 'o' 2 false ∧ st.arg.motion = .kill ∧ st.overwrite = none ∧
    (∀ q, Occurs 'o' st.buf st.idx 2 q → false = true → q + 1 ≠ st.idx) ∧ text st = "to foo bar".toList ∧ st.idx = 1 ∧
    invoke env .expectChar 'o' st = some st' ∧ text st' = "t bar".toList ∧ lastKilled st' = some "o foo".toList ∧ st'.mode = .viCommand :=
  ⟨run env true (type "to foo bar" ++ [key (.setMode .viCommand), key (.motion .beginningOfLine), key (.motion .forwardChar), key (.pending .kill), (.digit, '2'), key (.char .findChar)]),
    run env true (type "to foo bar" ++ [key (.setMode .viCommand), key (.motion .beginningOfLine), key (.motion .forwardChar), key (.pending .kill), (.digit, '2'), key (.char .findChar), (.expectChar, 'o')]),
    session ok true _ (by decide) (by decide +kernel), ⟨.findChar, Or.inl ⟨rfl, by decide +kernel, rfl, by decide +kernel⟩, by decide, by decide⟩,
    by decide +kernel, by decide +kernel, fun _ _ h => (by cases h), by decide +kernel, by decide +kernel, by decide +kernel, by decide +kernel, by decide +kernel, by decide +kernel⟩

/-- What is missing in the theorem above: `dTt` with the cursor next to the `t` deletes the character under the cursor, although the motion does
not go anywhere. -/
theorem delete_back_till_deletes_char : ∃ st st', Session env st ∧ Seeks st .expectChar 't' 't' (-1) true ∧ st.arg.motion = .kill ∧
    text st = "to".toList ∧ st.idx = 1 ∧ Occurs 't' st.buf st.idx (-1) 0 ∧ invoke env .expectChar 't' st = some st' ∧ text st' = "t".toList :=
  ⟨run env true (type "to" ++ [key (.setMode .viCommand), key (.pending .kill), key (.char .tillCharRev)]),
    run env true (type "to" ++ [key (.setMode .viCommand), key (.pending .kill), key (.char .tillCharRev), (.expectChar, 't')]),
    session ok true _ (by decide) (by decide +kernel), ⟨.tillCharRev, Or.inl ⟨rfl, by decide +kernel, rfl, by decide +kernel⟩, by decide, by decide⟩,
    by decide +kernel, by decide +kernel, by decide +kernel, by rw [Occurs]; decide +kernel, by decide +kernel, by decide +kernel⟩

end Yash.Edit
