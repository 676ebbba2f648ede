import Verif.Edit.Props5
/-! # Operators that change to the insert mode (C75) -/
set_option autoImplicit false

namespace Yash.Edit
open Spec Sample

/-- An operator that deletes and changes to the insert mode (`c` in vi mode) removes exactly what is between the cursor and the place the motion goes
to, and text is then inserted there.  If the motion cannot go anywhere, nothing happens.  The motions by words from a character that is not blank
are the next theorem. -/
theorem change_removes_region_partial {E : Env} {st st' : St} (s : Session E st) (cmd : Cmd) (f : Mec) (m : Motion) (c : Char) (ho : Operates st cmd f m)
    (hd : f.delete = true) (hu : f.upper = false) (hl : f.lower = false) (hins : f.insert = true) (hov : st.overwrite = none)
    (hw : (∀ k, m ≠ .forward k ∧ m ≠ .backward k) ∨ ∃ x, st.buf[st.idx]? = some x ∧ E.chars.blank x = true)
    (hq : ¬Missed E.chars m st.buf) (h : invoke E cmd c st = some st') :
    ∃ r, Goes E.chars m (getCount st.arg 1) (getCount st.arg 0) st.buf st.idx r ∧
      text st' = (text st).take (min st.idx r) ++ (text st).drop (upTo m st.buf st.idx r) ∧
      (st'.mode = .viInsert ∧ st'.overwrite = none ∧ st'.idx = min st.idx r ∧ st'.arg = {} ∧
          (f.copy = true → (st.buf.drop (min st.idx r)).take (upTo m st.buf st.idx r - min st.idx r) ≠ [] →
            lastKilled st' = some ((st.buf.drop (min st.idx r)).take (upTo m st.buf st.idx r - min st.idx r))) ∨
        st'.mode = st.mode ∧ text st' = text st ∧ r = st.idx ∧ lastKilled st' = lastKilled st) := by
  have g := session_good s
  obtain ⟨hex, hcar⟩ := operates_exec (E := E) c ho
  obtain ⟨s1, st1, he, hi, g', fin, -⟩ := invoke_ok g cmd c hcar
  rw [h] at hi
  have hi := Option.some.inj hi
  subst hi
  have hidx := g.inv.idx
  rw [hex] at he
  have h0 : Inv E { st with cur := some (cmd, c), arg := { st.arg with motion := f } } := { g.inv with }
  have hne : f ≠ .move := by intro hf; rw [hf] at hd; cases hd
  have hcw : cwTreatment E.chars { st with cur := some (cmd, c), arg := { st.arg with motion := f } } = false ∨ ∀ k, m ≠ .forward k ∧ m ≠ .backward k := by
    rcases hw with hw | ⟨x, hx, hb⟩
    · exact Or.inr hw
    · refine Or.inl ?_
      rw [cwTreatment, isAt_some (s := st.buf) hx, hb]
      simp
  rcases doMotion_lands g.ok h0 hcw hq he with ⟨r, hg, hr, hx⟩ | ⟨hx, hg⟩
  · obtain ⟨b1, b2, b3, b4, -, b5, b6⟩ := execMotion_delete h0 g.main hr hd hu hl hov hx
    have b5 := b5 hins
    dsimp only at b1 b2 b5 b6 hr
    have hle : min st.idx r ≤ upTo m st.buf st.idx r := by rw [upTo]; split <;> omega
    have ht : text st' = (text st).take (min st.idx r) ++ (text st).drop (upTo m st.buf st.idx r) := by
      have ha : activeLength s1 = s1.buf.length := by rw [activeLength, b3]
      rw [fin.text, ha, List.take_length, b1, removeAt, text_eq hidx, regionEnd_upTo, show min st.idx r + (upTo m st.buf st.idx r - min st.idx r) = upTo m st.buf st.idx r by omega]
      rfl
    have hmode : st'.mode = .viInsert := fin.kept.mode.trans b5.1
    refine ⟨r, hg, ht, Or.inl ⟨hmode, fin.kept.overwrite.trans b5.2, ?_, fin.kept.arg.trans b4, ?_⟩⟩
    · rcases fin.idx with hy | ⟨y1, y2, y3, y4⟩
      · exact hy.trans b2
      · rw [hmode] at y1; cases y1
    · intro hc hn
      have := b6 hc hn
      rw [lastKilled, fin.kept.same.ring, fin.kept.same.nextKill]
      exact this
  · subst hx
    rcases hg with ⟨hg, hinc⟩ | ⟨-, hm, -⟩
    · have ht : text st' = text st := by rw [fin.text, text_eq hidx]; rfl
      have hup : upTo m st.buf st.idx st.idx = st.idx := by
        rw [upTo, if_neg, Nat.max_self]
        rintro ⟨h1, h2⟩
        rcases hinc h1 with h3 | h3
        · dsimp only at h3; omega
        · exact hne h3
      refine ⟨st.idx, hg, ?_, Or.inr ⟨fin.kept.mode, ht, rfl, ?_⟩⟩
      · rw [hup, Nat.min_self, List.take_append_drop, ht]
      · rw [lastKilled, fin.kept.same.ring, fin.kept.same.nextKill]; rfl
    · exact absurd hm hne

/-- The end of the word. -/
theorem nextEnd_here (C : Chars) (hC : Sane C) (k : WordKind) (s : List Char) (i p : Nat) (h : i < s.length) (hp : nextEnd C k s i false = some p) :
    AfterEnd (sortOf C k) s i (if p < s.length then p + 1 else p) ∧ p ≤ s.length ∧ i ≤ p := by
  by_cases hk : k = .viword
  · subst hk
    simp only [nextEnd] at hp
    rcases nextEndVi_round C hC s false i (i + s.length + 1) i (by omega) with ⟨h1, h2⟩ | ⟨e, hie, hel, hend, hfirst, heq⟩
    · rw [h1] at hp; cases hp
      rw [if_neg (by omega)]
      exact ⟨Or.inr ⟨rfl, h2⟩, Nat.le_refl _, by omega⟩
    · rw [heq] at hp
      simp only [Bool.not_false, Bool.or_true, if_true] at hp
      cases hp
      rw [if_pos hel]
      exact ⟨Or.inl ⟨p, rfl, hie, hend, hfirst⟩, by omega, hie⟩
  · have hp : nextEndPlain (separator C k) s false i (i + s.length + 2) i = some p := by cases k <;> first | exact hp | exact absurd rfl hk
    rw [← sort_separator C k hk]
    generalize separator C k = sep at *
    obtain ⟨hs1, hs2⟩ := sortBy_sep sep
    obtain ⟨c, hc⟩ := get_of_lt h
    rw [nextEndPlain, hc] at hp
    simp only [Bool.not_false, Bool.or_true, if_true, Option.some.injEq] at hp
    have h1 := le_skip sep s i
    have h1' := skip_le sep s i (by omega)
    by_cases hl : skip sep s i < s.length
    · obtain ⟨d, hd⟩ := get_of_lt hl
      have hsd := skip_stop sep s i d hd
      obtain ⟨e, he, hie, hel, hend, hfirst⟩ := end_word _ _ _ true s i hs1 hs2 (by rw [isAt_some hd, hsd]; rfl)
      rw [he, Nat.add_sub_cancel] at hp
      subst hp
      rw [if_pos hel]
      exact ⟨Or.inl ⟨e, rfl, hie, hend, hfirst⟩, by omega, hie⟩
    · have h2 := le_skip (fun c => !sep c) s (skip sep s i)
      have h3 := skip_le (fun c => !sep c) s (skip sep s i) h1'
      rw [if_pos (by omega)]
      exact ⟨Or.inr ⟨by omega, no_end _ sep s i hs2 (by omega)⟩, by omega, by omega⟩

/-- `cw`: with the cursor on a character that is not blank, what is removed goes through the end of the word, not to the start of the next one; with
a count, through the end of the word that the motion by one word less goes to. -/
theorem change_word_removes_word {E : Env} {st st' : St} (s : Session E st) (cmd : Cmd) (f : Mec) (k : WordKind) (c x : Char) (ho : Operates st cmd f (.forward k))
    (hd : f.delete = true) (hu : f.upper = false) (hl : f.lower = false) (hins : f.insert = true) (hov : st.overwrite = none) (hn : 0 < getCount st.arg 1)
    (hx : st.buf[st.idx]? = some x) (hb : E.chars.blank x = false) (h : invoke E cmd c st = some st') :
    ∃ j e, Steps (NextStart (sortOf E.chars k) st.buf) (getCount st.arg 1 - 1).toNat st.idx j ∧ AfterEnd (sortOf E.chars k) st.buf j e ∧
      text st' = (text st).take st.idx ++ (text st).drop e ∧ st'.mode = .viInsert ∧ st'.overwrite = none ∧ st'.idx = st.idx ∧
      (f.copy = true → lastKilled st' = some ((st.buf.drop st.idx).take (e - st.idx))) := by
  have g := session_good s
  obtain ⟨hex, hcar⟩ := operates_exec (E := E) c ho
  obtain ⟨s1, st1, he, hi, g', fin, -⟩ := invoke_ok g cmd c hcar
  rw [h] at hi
  have hi := Option.some.inj hi
  subst hi
  have hidx := g.inv.idx
  have hlt : st.idx < st.buf.length := (List.getElem?_eq_some_iff.1 hx).1
  rw [hex] at he
  have h0 : Inv E { st with cur := some (cmd, c), arg := { st.arg with motion := f } } := { g.inv with }
  have hne : f ≠ .move := by intro hf; rw [hf] at hd; cases hd
  have hcw : cwTreatment E.chars { st with cur := some (cmd, c), arg := { st.arg with motion := f } } = true := by
    rw [cwTreatment, isAt_some (s := st.buf) hx, hb]
    simp [hins]
  have hal : alertIfLast { st with cur := some (cmd, c), arg := { st.arg with motion := f } } = false := by
    rw [alertIfLast]; dsimp only
    split
    · simp [hne]
    · simpa using hlt
  have hcnt : getCount { st.arg with motion := f } 1 = getCount st.arg 1 := rfl
  have hC := g.ok.sane
  obtain ⟨j, hj, hjl⟩ := iterate_ok (fun i => some (nextWord E.chars k st.buf i)) (fun i => !decide (i < st.buf.length)) (fun i => st.idx ≤ i ∧ i ≤ st.buf.length)
    (by intro i hp hs
        simp only [Bool.not_eq_false', decide_eq_true_eq] at hs
        have := nextWord_ok E.chars hC k st.buf i hs
        exact ⟨_, rfl, by omega, this.2⟩) ((getCount st.arg 1).toNat - 1) st.idx ⟨Nat.le_refl _, hidx⟩
  have hsteps : Steps (NextStart (sortOf E.chars k) st.buf) (getCount st.arg 1 - 1).toNat st.idx j := by
    rw [show (getCount st.arg 1 - 1).toNat = (getCount st.arg 1).toNat - 1 by omega]
    refine iterate_steps _ _ _ (fun i => i ≤ st.buf.length) ?_ ?_ _ _ _ hidx hj
    · intro i j _ hs hj
      simp only [Bool.not_eq_false', decide_eq_true_eq] at hs
      cases hj
      exact ⟨nextWord_step E.chars hC k st.buf i hs, (nextWord_ok E.chars hC k st.buf i hs).2⟩
    · intro i hp hs
      simp only [Bool.not_eq_true', decide_eq_false_iff_not] at hs
      have he : i = st.buf.length := by omega
      have := nextStart_end (sortOf E.chars k) st.buf i (by omega)
      rw [← he] at this; exact this
  have hp : ∃ p, (if (decide ((getCount st.arg 1).toNat > 0) && decide (j < st.buf.length)) = true then nextEnd E.chars k st.buf j false else some j) = some p ∧
      AfterEnd (sortOf E.chars k) st.buf j (if p < st.buf.length then p + 1 else p) ∧ p ≤ st.buf.length ∧ j ≤ p := by
    by_cases hjl' : j < st.buf.length
    · rw [if_pos (by simp only [Bool.and_eq_true, decide_eq_true_eq]; omega)]
      obtain ⟨p, hp, -, -⟩ := nextEnd_false E.chars hC k st.buf j hjl'
      exact ⟨p, hp, nextEnd_here E.chars hC k st.buf j p hjl' hp⟩
    · rw [if_neg (by simp only [Bool.and_eq_true, decide_eq_true_eq]; omega)]
      refine ⟨j, rfl, ?_, hjl.2, Nat.le_refl _⟩
      rw [if_neg hjl']
      exact Or.inr ⟨by omega, fun i hi => not_end_end _ _ i (by omega)⟩
  obtain ⟨p, hp, hend, hpl, hjp⟩ := hp
  have ht : target E.chars (.forward k) { st with cur := some (cmd, c), arg := { st.arg with motion := f } } = some (some (p, true)) := by
    simp only [target, hcnt]
    rw [if_pos (by omega), forwardWord, hal, hcw]
    simp only [Bool.false_eq_true, if_false, Bool.not_true]
    rw [hj]
    simp only [Option.bind_eq_bind, Option.bind_some]
    split at hp
    · rename_i hh
      rw [if_pos hh, hp]
      rfl
    · rename_i hh
      rw [if_neg hh]
      cases hp
      rfl
  rw [doMotion, ht] at he
  have he : execMotion E p true { st with cur := some (cmd, c), arg := { st.arg with motion := f } } = some s1 := he
  obtain ⟨b1, b2, b3, b4, -, b5, b6⟩ := execMotion_delete h0 g.main hpl hd hu hl hov he
  have b5 := b5 hins
  dsimp only at b1 b2 b5 b6
  have hre : regionEnd true st.buf st.idx p = (if p < st.buf.length then p + 1 else p) := by
    rw [regionEnd, Nat.max_eq_right (by omega)]; simp
  rw [Nat.min_eq_left (by omega), hre] at b1 b6
  rw [Nat.min_eq_left (by omega)] at b2
  generalize hev : (if p < st.buf.length then p + 1 else p) = e at *
  have hie : st.idx < e ∧ e ≤ st.buf.length := by split at hev <;> omega
  have hm : st'.mode = .viInsert := fin.kept.mode.trans b5.1
  refine ⟨j, e, hsteps, hend, ?_, hm, fin.kept.overwrite.trans b5.2, ?_, ?_⟩
  · have ha : activeLength s1 = s1.buf.length := by rw [activeLength, b3]
    rw [fin.text, ha, List.take_length, b1, removeAt, text_eq hidx, show st.idx + (e - st.idx) = e by omega]
    rfl
  · rcases fin.idx with hy | ⟨y1, y2, y3, y4⟩
    · exact hy.trans b2
    · rw [hm] at y1; cases y1
  · intro hc
    have := b6 hc (by
      intro hnil
      have := congrArg List.length hnil
      simp only [region, List.length_take, List.length_drop, List.length_nil] at this
      omega)
    rw [lastKilled, fin.kept.same.ring, fin.kept.same.nextKill]
    exact this

/-- For instance, `2cw`. -/
example : ∃ st st', Session env st ∧ Operates st (.motion (.forward .viword)) .copyChange (.forward .viword) ∧ st.overwrite = none ∧
    getCount st.arg 1 = 2 ∧ st.buf[st.idx]? = some 'a' ∧ text st = "ab cd ef".toList ∧
    invoke env (.motion (.forward .viword)) 'w' st = some st' ∧ text st' = " ef".toList ∧ st'.mode = .viInsert ∧ lastKilled st' = some "ab cd".toList :=
  ⟨run env true (type "ab cd ef" ++ [key (.setMode .viCommand), key (.motion .beginningOfLine), (.digit, '2'), key (.pending .copyChange)]),
    run env true (type "ab cd ef" ++ [key (.setMode .viCommand), key (.motion .beginningOfLine), (.digit, '2'), key (.pending .copyChange), (.motion (.forward .viword), 'w')]),
    session ok true _ (by decide) (by decide +kernel), Or.inl ⟨rfl, by decide +kernel⟩, by decide +kernel, by decide +kernel, by decide +kernel, by decide +kernel,
    by decide +kernel, by decide +kernel, by decide +kernel, by decide +kernel⟩

/-- And `cb`. -/
example : ∃ st st', Session env st ∧ Operates st (.motion .backwardChar) .copyChange .backwardChar ∧ st.overwrite = none ∧
    ¬Missed env.chars .backwardChar st.buf ∧ getCount st.arg 1 = 2 ∧ st.idx = 7 ∧ text st = "ab cd ef".toList ∧
    invoke env (.motion .backwardChar) 'h' st = some st' ∧ text st' = "ab cdf".toList ∧ st'.mode = .viInsert ∧ lastKilled st' = some " e".toList :=
  ⟨run env true (type "ab cd ef" ++ [key (.setMode .viCommand), (.digit, '2'), key (.pending .copyChange)]),
    run env true (type "ab cd ef" ++ [key (.setMode .viCommand), (.digit, '2'), key (.pending .copyChange), (.motion .backwardChar, 'h')]),
    session ok true _ (by decide) (by decide +kernel), Or.inl ⟨rfl, by decide +kernel⟩, by decide +kernel, fun h => h, by decide +kernel, by decide +kernel, by decide +kernel,
    by decide +kernel, by decide +kernel, by decide +kernel, by decide +kernel⟩
end Yash.Edit
