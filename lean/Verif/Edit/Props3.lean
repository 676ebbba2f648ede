import Verif.Edit.Undo
import Verif.Edit.Sample
/-! # Typing and accepting the line -/
set_option autoImplicit false

namespace Yash.Edit
open Spec Sample

/-- The characters are inserted, or take the place of those behind the cursor. -/
theorem insertChars_text (c : Char) : ∀ (n : Nat) (st : St), st.idx ≤ st.buf.length →
    (insertChars c n st).buf = st.buf.take st.idx ++ List.replicate n c ++ st.buf.drop (if st.overwrite.isSome = true then st.idx + n else st.idx) ∧
    (insertChars c n st).idx = st.idx + n ∧ (insertChars c n st).mainLen = st.mainLen ∧ (insertChars c n st).mode = st.mode ∧
    (insertChars c n st).overwrite = st.overwrite ∧ (insertChars c n st).state = st.state
  | 0, st, h => by
    rw [insertChars]
    refine ⟨?_, rfl, rfl, rfl, rfl, rfl⟩
    simp
  | n + 1, st, h => by
    rw [insertChars]
    split
    · rename_i ho
      rw [Bool.and_eq_true, decide_eq_true_eq] at ho
      obtain ⟨h1, h2, h3⟩ := insertChars_text c n { st with buf := st.buf.set st.idx c, idx := st.idx + 1 } (by simp only [List.length_set]; omega)
      refine ⟨?_, by rw [h2]; dsimp only; omega, h3⟩
      rw [h1]
      simp only [ho.1, if_true]
      rw [List.take_succ, List.getElem?_set_self ho.2, List.take_set_of_le (Nat.le_refl _), List.drop_set, if_pos (by omega),
        show st.idx + 1 + n = st.idx + (n + 1) by omega, List.replicate_succ]
      simp
    · rename_i ho
      have hlen : st.idx + 1 ≤ (insertAt st.buf st.idx [c]).length := by
        rw [insertAt]; simp only [List.length_append, List.length_take, List.length_drop, List.length_singleton]; omega
      obtain ⟨h1, h2, h3⟩ := insertChars_text c n { st with buf := insertAt st.buf st.idx [c], idx := st.idx + 1 } hlen
      refine ⟨?_, by rw [h2]; dsimp only; omega, h3⟩
      rw [h1]
      dsimp only
      have htl : (st.buf.take st.idx ++ [c]).length = st.idx + 1 := by simp only [List.length_append, List.length_take, List.length_singleton]; omega
      rw [insertAt, List.take_append_of_le_length (by omega), List.take_of_length_le (Nat.le_of_eq htl), List.replicate_succ]
      split
      · rename_i hov
        have : st.idx = st.buf.length := by
          rw [hov] at ho
          simp only [Bool.true_and, decide_eq_true_eq] at ho
          omega
        rw [List.drop_of_length_le (by simp only [List.length_append, List.length_take, List.length_drop, List.length_singleton]; omega),
          List.drop_of_length_le (by omega : st.buf.length ≤ st.idx + (n + 1))]
        simp
      · rw [List.drop_append_of_le_length (by omega), List.drop_of_length_le (Nat.le_of_eq htl)]
        simp

/-! ## C77: typing -/

/-- A typed character is inserted before the cursor, or takes the place of the one at the cursor where characters are overwritten, as many
times as the count says. -/
theorem typing_inserts {E : Env} {st st' : St} (s : Session E st) (c : Char) (hc : c ≠ '\x00') (hp : st.arg.motion = .move)
    (h : invoke E .selfInsert c st = some st') :
    text st' = (text st).take st.idx ++ List.replicate (getCount st.arg 1).toNat c ++
      (text st).drop (if st.overwrite = none then st.idx else st.idx + (getCount st.arg 1).toNat) ∧
    st'.arg = {} ∧ st'.overwrite = st.overwrite ∧ st'.mode = st.mode ∧
    (st.mode ≠ .viCommand → st'.idx = st.idx + (getCount st.arg 1).toNat) := by
  have g := session_good s
  obtain ⟨s1, st1, he, hi, g', fin, -⟩ := invoke_ok g .selfInsert c trivial
  rw [h] at hi
  have hi := Option.some.inj hi
  subst hi
  have he : some (selfInsert c { st with cur := some (.selfInsert, c) }) = some s1 := he
  have he := Option.some.inj he
  have hidx := g.inv.idx
  have h0 : ({ st with cur := some (.selfInsert, c) } : St).idx ≤ ({ st with cur := some (.selfInsert, c) } : St).buf.length := hidx
  obtain ⟨c1, c2, c3, c4, c5, c6⟩ := clear_text h0 (show Main { st with cur := some (.selfInsert, c) } from g.main)
  have hcb := clear_buf _ h0 (show Main { st with cur := some (.selfInsert, c) } from g.main)
  have hk := kept_clear { st with cur := some (.selfInsert, c) }
  have hml := (clear_idx { st with cur := some (.selfInsert, c) }).2
  rw [selfInsert, if_neg (by rw [isPending]; simp [hp]), if_neg hc] at he
  generalize clearPrediction { st with cur := some (.selfInsert, c) } = s0 at *
  obtain ⟨i1, i2, i3, i4, i5, -⟩ := insertChars_text c (getCount st.arg 1).toNat s0 c3
  rw [← text_eq h0] at hcb
  have hcb : s0.buf = text st := hcb
  have hov : s0.overwrite = st.overwrite := hk.overwrite
  have hxi : s0.idx = st.idx := c1
  have hmo : s0.mode = st.mode := hk.mode
  refine ⟨?_, ?_, ?_, ?_, ?_⟩
  · rw [fin.text, ← he]
    have ha : activeLength (resetState (insertChars c (getCount st.arg 1).toNat s0)) = (insertChars c (getCount st.arg 1).toNat s0).buf.length := by
      simp only [activeLength, resetState, i3, hml]
    rw [ha]
    show List.take _ (insertChars c (getCount st.arg 1).toNat s0).buf = _
    rw [List.take_length, i1, hcb, hxi, hov]
    cases st.overwrite <;> rfl
  · rw [fin.kept.arg, ← he]; rfl
  · rw [fin.kept.overwrite, ← he]; exact i5.trans hov
  · rw [fin.kept.mode, ← he]; exact i4.trans hmo
  · intro hv
    rcases fin.idx with hx | ⟨hx, -⟩
    · rw [hx, ← he]; show (insertChars c (getCount st.arg 1).toNat s0).idx = _; rw [i2, hxi]
    · rw [fin.kept.mode, ← he] at hx
      exact absurd ((i4.trans hmo).symm.trans hx) hv

/-- For instance, with a count. -/
example : ∃ st st', Session env st ∧ st.arg.motion = .move ∧ getCount st.arg 1 = 3 ∧ text st = "ab".toList ∧ st.idx = 1 ∧
    invoke env .selfInsert '-' st = some st' ∧ text st' = "a---b".toList :=
  ⟨run env false (type "ab" ++ [key (.motion .backwardChar), (.digit, '3')]), run env false (type "ab" ++ [key (.motion .backwardChar), (.digit, '3'), (.selfInsert, '-')]),
    session ok false _ (by decide) (by decide +kernel), by decide +kernel, by decide +kernel, by decide +kernel, by decide +kernel, by decide +kernel, by decide +kernel⟩

/-- A text is typed: it appears in the line as it is, before or in the place of what is behind the cursor, whatever was predicted meanwhile. -/
theorem typed_text_inserted {E : Env} : ∀ (cs : List Char) (st st' : St), Session E st → (∀ c ∈ cs, c ≠ '\x00') → st.arg = {} → st.mode ≠ .viCommand →
    invokeAll E (cs.map fun c => (.selfInsert, c)) st = some st' →
    text st' = (text st).take st.idx ++ cs ++ (text st).drop (if st.overwrite = none then st.idx else st.idx + cs.length) ∧ st'.idx = st.idx + cs.length
  | [], st, st', s, _, _, _, h => by
    cases h
    refine ⟨?_, rfl⟩
    simp
  | c :: cs, st, st', s, hc, ha, hv, h => by
    rw [List.map_cons, invokeAll] at h
    split at h
    · cases h
    · rename_i st1 h1
      have hn : (getCount st.arg 1).toNat = 1 := by rw [ha]; rfl
      obtain ⟨t1, t2, t3, t4, t5⟩ := typing_inserts s c (hc c (List.mem_cons_self ..)) (by rw [ha]) h1
      have t5 := t5 hv
      rw [hn] at t1 t5
      obtain ⟨u1, u2⟩ := typed_text_inserted cs st1 st' (.command .selfInsert c s trivial h1) (fun x hx => hc x (List.mem_cons_of_mem _ hx)) t2 (by rw [t4]; exact hv) h
      have hle : st.idx ≤ (text st).length := by
        have g := session_good s
        rw [text_eq g.inv.idx]; exact text_length st g.inv.idx
      refine ⟨?_, by rw [u2, t5, List.length_cons]; omega⟩
      rw [u1, t1, t3, t5]
      have htl : ((text st).take st.idx ++ List.replicate 1 c).length = st.idx + 1 := by
        simp only [List.length_append, List.length_take, List.length_replicate]; omega
      rw [List.take_append_of_le_length (by omega), List.take_of_length_le (Nat.le_of_eq htl)]
      split
      · rw [List.drop_append_of_le_length (by omega), List.drop_of_length_le (Nat.le_of_eq htl)]
        simp
      · rw [List.drop_append, List.drop_of_length_le (by omega), htl, List.drop_drop, List.length_cons]
        simp only [List.replicate_one, List.nil_append, List.append_assoc, List.singleton_append, List.cons_append]
        have : st.idx + 1 + (st.idx + 1 + cs.length - (st.idx + 1)) = st.idx + (cs.length + 1) := by omega
        rw [this]

/-- For instance, into a line whose end is predicted: `ab` is followed by `cd` on the terminal, but that is not part of the line. -/
example : ∃ st st', Session envPredict st ∧ st.arg = {} ∧ st.mode ≠ .viCommand ∧ text st = "ab".toList ∧ st.buf = "abcd".toList ∧ st.idx = 2 ∧
    invokeAll envPredict ("xy".toList.map fun c => (.selfInsert, c)) st = some st' ∧ text st' = "abxy".toList :=
  ⟨run envPredict false (type "ab"), run envPredict false (type "ab" ++ type "xy"),
    session ok_predict false _ (by decide) (by decide +kernel), by decide +kernel, by decide +kernel, by decide +kernel, by decide +kernel, by decide +kernel,
    by decide +kernel, by decide +kernel⟩

/-- And in the overwriting mode of vi. -/
example : ∃ st st', Session env st ∧ st.arg = {} ∧ st.mode ≠ .viCommand ∧ text st = "abcd".toList ∧ st.overwrite ≠ none ∧ st.idx = 2 ∧
    invokeAll env ("xyz".toList.map fun c => (.selfInsert, c)) st = some st' ∧ text st' = "abxyz".toList :=
  ⟨run env true (type "abcd" ++ [key (.setMode .viCommand), key (.motion .backwardChar), key .viReplace]),
    run env true (type "abcd" ++ [key (.setMode .viCommand), key (.motion .backwardChar), key .viReplace] ++ type "xyz"),
    session ok true _ (by decide) (by decide +kernel), by decide +kernel, by decide +kernel, by decide +kernel, by decide +kernel, by decide +kernel,
    by decide +kernel, by decide +kernel⟩

theorem finalize_is_text {E : Env} {st : St} (s : Session E st) : finalize st = text st := by
  have g := session_good s
  rw [finalize, clear_buf st g.inv.idx g.main, text_eq g.inv.idx]

/-- When the line is accepted, the shell gets the line as it was typed, without the prediction; with the command that accepts the
prediction, it gets what is shown; and with the command for comments, the line with `#` before it, or without it if there is a count
and it is there. -/
theorem accepted_line {E : Env} {st st' : St} (s : Session E st) (c : Char) (hp : st.arg.motion = .move) :
    (invoke E .acceptLine c st = some st' → st'.state = .done ∧ finalize st' = text st) ∧
    (invoke E .acceptPrediction c st = some st' → st'.state = .done ∧ finalize st' = st.buf) ∧
    (invoke E .acceptWithHash c st = some st' → st'.state = .done ∧
      (st.arg.sign = 0 ∨ (text st).head? ≠ some '#' → finalize st' = '#' :: text st) ∧
      (st.arg.sign ≠ 0 → ∀ t, text st = '#' :: t → finalize st' = t)) := by
  have g := session_good s
  have hidx := g.inv.idx
  have hpe : ∀ cu, isPending { st with cur := cu } = false := by intro cu; rw [isPending]; simp [hp]
  refine ⟨fun h => ?_, fun h => ?_, fun h => ?_⟩
  · obtain ⟨s1, st1, he, hi, g', fin, -⟩ := invoke_ok g .acceptLine c trivial
    rw [h] at hi
    have hi := Option.some.inj hi
    subst hi
    have he : some (acceptLine { st with cur := some (.acceptLine, c) }) = some s1 := he
    have he := Option.some.inj he
    rw [acceptLine, hpe] at he
    simp only [Bool.false_eq_true, if_false] at he
    refine ⟨by rw [fin.kept.state, ← he]; rfl, ?_⟩
    rw [finalize_is_text (.command .acceptLine c s trivial h), fin.text, ← he, text_eq hidx]
    rfl
  · obtain ⟨s1, st1, he, hi, g', fin, -⟩ := invoke_ok g .acceptPrediction c trivial
    rw [h] at hi
    have hi := Option.some.inj hi
    subst hi
    have he : some (if (acceptLine { st with cur := some (.acceptPrediction, c) }).state = .done then
      { acceptLine { st with cur := some (.acceptPrediction, c) } with mainLen := none } else acceptLine { st with cur := some (.acceptPrediction, c) }) = some s1 := he
    have he := Option.some.inj he
    rw [acceptLine, hpe] at he
    simp only [Bool.false_eq_true, if_false] at he
    rw [if_pos (by rfl)] at he
    refine ⟨by rw [fin.kept.state, ← he]; rfl, ?_⟩
    rw [finalize_is_text (.command .acceptPrediction c s trivial h), fin.text, ← he]
    exact List.take_length
  · obtain ⟨s1, st1, he, hi, g', fin, -⟩ := invoke_ok g .acceptWithHash c trivial
    rw [h] at hi
    have hi := Option.some.inj hi
    subst hi
    have he : some (acceptWithHash { st with cur := some (.acceptWithHash, c) }) = some s1 := he
    have he := Option.some.inj he
    have h0 : ({ st with cur := some (.acceptWithHash, c) } : St).idx ≤ ({ st with cur := some (.acceptWithHash, c) } : St).buf.length := hidx
    have hcb := clear_buf _ h0 (show Main { st with cur := some (.acceptWithHash, c) } from g.main)
    have hk := kept_clear { st with cur := some (.acceptWithHash, c) }
    have hml := (clear_idx { st with cur := some (.acceptWithHash, c) }).2
    rw [acceptWithHash, hpe] at he
    simp only [Bool.false_eq_true, if_false] at he
    generalize clearPrediction { st with cur := some (.acceptWithHash, c) } = s0 at *
    have hp0 : s0.arg.motion = .move := by rw [hk.arg]; exact hp
    have hs0 : s0.arg.sign = st.arg.sign := by rw [hk.arg]
    have hb0 : s0.buf = text st := by rw [hcb, text_eq hidx]; rfl
    rw [acceptLine, isPending] at he
    simp only [hp0, ne_eq, not_true_eq_false, decide_false, Bool.false_eq_true, if_false] at he
    rw [finalize_is_text (.command .acceptWithHash c s trivial h), fin.text, ← he]
    refine ⟨by rw [fin.kept.state, ← he]; rfl, fun hh => ?_, fun hh t ht => ?_⟩
    · simp only [activeLength, resetState, hml, List.take_length]
      rw [if_pos (by rw [hs0, hb0]; exact hh), hb0]
    · simp only [activeLength, resetState, hml, List.take_length]
      rw [if_neg (by rw [hs0, hb0, ht]; rintro (h1 | h1); exact hh h1; exact h1 rfl), hb0, ht]
      rfl

/-- For instance, `ab` is accepted without the predicted `cd`, or with it. -/
example : ∃ st st1 st2 st3, Session envPredict st ∧ st.arg.motion = .move ∧ st.buf = "abcd".toList ∧
    invoke envPredict .acceptLine 'x' st = some st1 ∧ finalize st1 = "ab".toList ∧ invoke envPredict .acceptPrediction 'x' st = some st2 ∧ finalize st2 = "abcd".toList ∧
    invoke envPredict .acceptWithHash 'x' st = some st3 ∧ finalize st3 = "#ab".toList :=
  ⟨run envPredict false (type "ab"), run envPredict false (type "ab" ++ [(.acceptLine, 'x')]), run envPredict false (type "ab" ++ [(.acceptPrediction, 'x')]),
    run envPredict false (type "ab" ++ [(.acceptWithHash, 'x')]),
    session ok_predict false _ (by decide) (by decide +kernel), by decide +kernel, by decide +kernel, by decide +kernel, by decide +kernel, by decide +kernel, by decide +kernel,
    by decide +kernel, by decide +kernel⟩

end Yash.Edit
