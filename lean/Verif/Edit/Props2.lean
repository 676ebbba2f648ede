import Verif.Edit.Operate
import Verif.Edit.Sample
/-! # Properties of motions and operators -/
set_option autoImplicit false

namespace Yash.Edit
open Spec Sample

theorem no_cw {C : Chars} {st : St} (h : st.arg.motion.insert = false) : cwTreatment C st = false := by rw [cwTreatment, h]; rfl

theorem doMotion_lands {E : Env} (hE : E.Ok) {st : St} {m : Motion} (h : Inv E st)
    (hi : cwTreatment E.chars st = false ∨ ∀ k, m ≠ .forward k ∧ m ≠ .backward k) (hq : ¬Missed E.chars m st.buf)
    {s1 : St} (he : doMotion E m st = some s1) :
    (∃ r, Goes E.chars m (getCount st.arg 1) (getCount st.arg 0) st.buf st.idx r ∧ r ≤ st.buf.length ∧ execMotion E r (inclusive m) st = some s1) ∨
      s1 = alert st ∧ (Goes E.chars m (getCount st.arg 1) (getCount st.arg 0) st.buf st.idx st.idx ∧ (inclusive m = true → st.idx = st.buf.length ∨ st.arg.motion = .move) ∨
        st.mode = .viCommand ∧ st.arg.motion = .move ∧ st.idx + 1 = st.buf.length ∧
          Goes E.chars m (getCount st.arg 1) (getCount st.arg 0) st.buf st.idx st.buf.length) := by
  obtain ⟨t, ht, hl⟩ := target_goes E.chars hE.sane m st h.idx hi hq
  rw [doMotion, ht] at he
  cases t with
  | none =>
    cases he
    refine Or.inr ⟨rfl, ?_⟩
    rcases hl with hl | hl
    · by_cases hinc : inclusive m = true
      · have hal : alertIfLast st = true := by
          cases m with
          | endOf k =>
            simp only [target] at ht
            rw [endOfWord] at ht
            split at ht
            · assumption
            · cases hh : iterate (fun i => nextEnd E.chars k st.buf i true) (fun i => !decide (i < st.buf.length)) (getCount st.arg 1).toNat st.idx <;>
                rw [hh] at ht <;> simp at ht
          | endOfLine => simp [target] at ht
          | _ => simp [inclusive] at hinc
        rcases alert_last h.idx hal with hx | ⟨h1, h2, h3⟩
        · exact Or.inl ⟨hl, fun _ => Or.inl hx⟩
        · exact Or.inl ⟨hl, fun _ => Or.inr h2⟩
      · exact Or.inl ⟨hl, fun hc => absurd hc hinc⟩
    · exact Or.inr hl
  | some x =>
    obtain ⟨r, b⟩ := x
    obtain ⟨h1, h2, h3⟩ := hl
    exact Or.inl ⟨r, h1, h3, by rw [← h2]; exact he⟩

/-! ## C76: motions -/

/-- A motion command goes as many words, characters and so on as the count says, and does not change the line: what was typed stays,
and if the cursor goes into the predicted part, that becomes part of the line.  In the command mode of vi the cursor stays before the
end of the line.  Left out: the backward motions by bigwords, semiwords and emacswords where one starts at the second character of the
line (see `backward_word_misses`), and the command mode of vi while a prediction is shown. -/
theorem motion_goes_partial {E : Env} {st st' : St} (s : Session E st) (m : Motion) (c : Char) (hm : st.arg.motion = .move)
    (hp : st.mode = .viCommand → text st = st.buf) (hq : ¬Missed E.chars m st.buf) (h : invoke E (.motion m) c st = some st') :
    ∃ r n, Goes E.chars m (getCount st.arg 1) (getCount st.arg 0) st.buf st.idx r ∧
      (st'.idx = r ∨ st'.mode = .viCommand ∧ st'.idx + 1 = r ∧ (r = (text st').length ∨ r = st.buf.length)) ∧
      text st' = st.buf.take n ∧ (text st).length ≤ n ∧ n ≤ max (text st).length r := by
  have g := session_good s
  have h0 : Inv E { st with cur := some (.motion m, c) } := { g.inv with }
  obtain ⟨s1, st1, he, hi, g', f, -⟩ := invoke_ok g (.motion m) c trivial
  rw [h] at hi
  have hi := Option.some.inj hi
  subst hi
  have hins : st.arg.motion.insert = false := by rw [hm]; rfl
  have hidx := g.inv.idx
  have hact := active_bounds st hidx
  have htl : (text st).length = activeLength st := by rw [text_eq hidx, List.length_take]; omega
  have he' : doMotion E m { st with cur := some (.motion m, c) } = some s1 := he
  rcases doMotion_lands g.ok h0 (Or.inl (no_cw hins)) hq he' with ⟨r, hg, hr, hx⟩ | ⟨hx, hg⟩
  · obtain ⟨b1, b2, b3, b4⟩ := execMotion_move h0 hr hm hx
    dsimp only at b1 b3 b4 hr
    have hact' : activeLength s1 = max (activeLength st) r ∨ activeLength s1 = activeLength st ∧ r ≤ activeLength st := by
      rw [activeLength, activeLength, b1, b2, b3]
      cases hml : st.mainLen with
      | none => right; exact ⟨rfl, hr⟩
      | some k =>
        have := g.main k hml
        dsimp only
        split
        · right; exact ⟨rfl, hr⟩
        · have hk : ¬k < st.idx := by omega
          simp only [hk, if_false]
          split
          · left; omega
          · left; omega
    refine ⟨r, activeLength s1, hg, ?_, by rw [f.text, b1], by omega, by omega⟩
    rcases f.idx with hy | ⟨y1, y2, y3, y4⟩
    · exact Or.inl (hy.trans b2)
    · exact Or.inr ⟨y1, by omega, Or.inl (by rw [f.text, ← y2, b2])⟩
  · subst hx
    have ht : text st' = st.buf.take (activeLength st) := f.text
    rcases hg with ⟨hg, -⟩ | ⟨hv, -, hlast, hg⟩
    · refine ⟨st.idx, activeLength st, hg, ?_, ht, by omega, by omega⟩
      rcases f.idx with hy | ⟨y1, y2, y3, y4⟩
      · exact Or.inl hy
      · exact Or.inr ⟨y1, y4, Or.inl (by rw [f.text]; exact y2)⟩
    · refine ⟨st.buf.length, activeLength st, hg, ?_, ht, by omega, by omega⟩
      rcases f.idx with hy | ⟨y1, y2, y3, y4⟩
      · refine Or.inr ⟨f.kept.mode.trans hv, ?_, Or.inr rfl⟩
        rw [show st'.idx = st.idx from hy]; exact hlast
      · exfalso
        have hall := congrArg List.length (hp hv)
        have y2' : st.idx = (st.buf.take (activeLength st)).length := y2
        rw [← text_eq hidx] at y2'
        have : st.idx + 1 = st.buf.length := hlast
        omega

/-- For instance, back by two viwords in `a=$foo`, with a count. -/
example : ∃ st st', Session env st ∧ st.arg.motion = .move ∧ (st.mode = .viCommand → text st = st.buf) ∧ ¬Missed env.chars (.backward .viword) st.buf ∧
    getCount st.arg 1 = 2 ∧ text st = "a=$foo".toList ∧ st.idx = 6 ∧ invoke env (.motion (.backward .viword)) 'x' st = some st' ∧ st'.idx = 1 :=
  ⟨run env false (type "a=$foo" ++ [(.digit, '2')]), run env false (type "a=$foo" ++ [(.digit, '2'), (.motion (.backward .viword), 'x')]),
    session ok false _ (by decide) (by decide +kernel), by decide +kernel, by decide +kernel, fun h => h, by decide +kernel, by decide +kernel, by decide +kernel,
    by decide +kernel, by decide +kernel⟩

/-- What is missing in the theorem above: backward motions by emacswords, bigwords and semiwords do not stop at a word that starts at the second
character of the line, but go to the first. -/
theorem backward_word_misses : ∃ st st', Session env st ∧ st.arg.motion = .move ∧ getCount st.arg 1 = 1 ∧ text st = "$foo".toList ∧ st.idx = 4 ∧
    PrevStart (sortEmacs env.chars) st.buf st.idx 1 ∧ invoke env (.motion .backwardEmacs) 'x' st = some st' ∧ st'.idx = 0 := by
  refine ⟨run env false (type "$foo"), run env false (type "$foo" ++ [(.motion .backwardEmacs, 'x')]),
    session ok false _ (by decide) (by decide +kernel), by decide +kernel, by decide +kernel, by decide +kernel, by decide +kernel, Or.inl ⟨by decide +kernel,
      ⟨'f', true, by decide +kernel, by decide +kernel, ?_⟩, ?_⟩, by decide +kernel, by decide +kernel⟩
  · intro i d hi hd
    have : i = 0 := by omega
    subst this
    rw [show (run env false (type "$foo")).buf[0]? = some '$' by decide +kernel] at hd
    cases hd
    decide
  · rw [show (run env false (type "$foo")).idx = 4 by decide +kernel, show (run env false (type "$foo")).buf = "$foo".toList by decide +kernel]
    rintro j h1 h2 ⟨c, a, hc, ha, hn⟩
    have h3 : j = 2 ∨ j = 3 := by omega
    rcases h3 with rfl | rfl
    · cases hc
      exact hn 1 'f' rfl rfl (by rw [← ha]; decide)
    · cases hc
      exact hn 2 'o' rfl rfl ha

/-! ## C75: operators -/

theorem operates_exec {E : Env} {st : St} {cmd : Cmd} {f : Mec} {m : Motion} (c : Char) (ho : Operates st cmd f m) :
    exec E cmd c { st with cur := some (cmd, c) } = doMotion E m { st with cur := some (cmd, c), arg := { st.arg with motion := f } } ∧ Careful st cmd := by
  have hp : st.arg.motion = .move → isPending { st with cur := some (cmd, c) } = false := by
    intro hm
    simp [isPending, hm]
  rcases ho with ⟨rfl, hm⟩ | ⟨rfl, hm⟩ | ⟨rfl, hm, rfl⟩
  · subst hm; exact ⟨rfl, trivial⟩
  · refine ⟨?_, trivial⟩
    show execOn E f m _ = _
    rw [execOn, hp hm, if_neg (by simp)]
  · refine ⟨?_, trivial⟩
    show execOn E _ m _ = _
    rw [execOn, hp hm, if_neg (by simp)]

theorem regionEnd_upTo (m : Motion) (s : List Char) (i r : Nat) : regionEnd (inclusive m) s i r = upTo m s i r := rfl

/-- An operator that deletes removes exactly what is between the cursor and the place the motion goes to, and leaves the cursor there;
if it kills the text, that is what was killed last. -/
theorem delete_removes_region_partial {E : Env} {st st' : St} (s : Session E st) (cmd : Cmd) (f : Mec) (m : Motion) (c : Char) (ho : Operates st cmd f m)
    (hd : f.delete = true) (hu : f.upper = false) (hl : f.lower = false) (hins : f.insert = false) (hov : st.overwrite = none)
    (hq : ¬Missed E.chars m st.buf) (h : invoke E cmd c st = some st') :
    ∃ r, Goes E.chars m (getCount st.arg 1) (getCount st.arg 0) st.buf st.idx r ∧
      text st' = (text st).take (min st.idx r) ++ (text st).drop (upTo m st.buf st.idx r) ∧
      (st'.idx = min st.idx r ∨ st'.mode = .viCommand ∧ min st.idx r = (text st').length ∧ st'.idx + 1 = min st.idx r) ∧
      (f.copy = true → (st.buf.drop (min st.idx r)).take (upTo m st.buf st.idx r - min st.idx r) ≠ [] →
        lastKilled st' = some ((st.buf.drop (min st.idx r)).take (upTo m st.buf st.idx r - min st.idx r))) ∧
      (text st' ≠ text st → st'.arg = {} ∧ st'.overwrite = none) ∧ st'.mode = st.mode := by
  have g := session_good s
  obtain ⟨hex, hcar⟩ := operates_exec (E := E) c ho
  obtain ⟨s1, st1, he, hi, g', fin, -⟩ := invoke_ok g cmd c hcar
  rw [h] at hi
  have hi := Option.some.inj hi
  subst hi
  have hidx := g.inv.idx
  rw [hex] at he
  have h0 : Inv E { st with cur := some (cmd, c), arg := { st.arg with motion := f } } := { g.inv with }
  have hne : f ≠ .move := by intro hf; rw [hf] at hd; cases hd
  rcases doMotion_lands g.ok h0 (Or.inl (no_cw hins)) hq he with ⟨r, hg, hr, hx⟩ | ⟨hx, hg⟩
  · obtain ⟨b1, b2, b3, b4, b5, -, b6⟩ := execMotion_delete h0 g.main hr hd hu hl hov hx
    have b5 := b5 hins
    dsimp only at b1 b2 b5 b6 hr
    have hle : min st.idx r ≤ upTo m st.buf st.idx r := by rw [upTo]; split <;> omega
    have ht : text st' = (text st).take (min st.idx r) ++ (text st).drop (upTo m st.buf st.idx r) := by
      have ha : activeLength s1 = s1.buf.length := by rw [activeLength, b3]
      rw [fin.text, ha, List.take_length, b1, removeAt, text_eq hidx, regionEnd_upTo, show min st.idx r + (upTo m st.buf st.idx r - min st.idx r) = upTo m st.buf st.idx r by omega]
      rfl
    refine ⟨r, hg, ht, ?_, ?_, fun _ => ⟨fin.kept.arg.trans b4, fin.kept.overwrite.trans b5.2⟩, fin.kept.mode.trans b5.1⟩
    · rcases fin.idx with hy | ⟨y1, y2, y3, y4⟩
      · exact Or.inl (hy.trans b2)
      · exact Or.inr ⟨y1, by rw [fin.text, ← y2, b2], by omega⟩
    · intro hc hn
      have := b6 hc hn
      rw [lastKilled, fin.kept.same.ring, fin.kept.same.nextKill]
      exact this
  · subst hx
    rcases hg with ⟨hg, hinc⟩ | ⟨-, hm, -⟩
    · have ht : text st' = text st := by rw [fin.text, text_eq hidx]; rfl
      have hup : upTo m st.buf st.idx st.idx = st.idx := by
        rw [upTo, if_neg, Nat.max_self]
        rintro ⟨h1, h2⟩
        rcases hinc h1 with h3 | h3
        · dsimp only at h3; omega
        · exact hne h3
      refine ⟨st.idx, hg, ?_, ?_, ?_, fun hn => absurd ht hn, fin.kept.mode⟩
      · rw [hup, Nat.min_self, List.take_append_drop, ht]
      · rw [Nat.min_self]
        rcases fin.idx with hy | ⟨y1, y2, y3, y4⟩
        · exact Or.inl hy
        · exact Or.inr ⟨y1, by rw [fin.text]; exact y2, y4⟩
      · intro _ hn
        rw [hup] at hn
        simp at hn
    · exact absurd hm hne

/-- For instance, a word before the cursor is killed. -/
example : ∃ st st', Session env st ∧ Operates st (.onMotion .kill (.backward .viword)) .kill (.backward .viword) ∧ st.overwrite = none ∧
    ¬Missed env.chars (.backward .viword) st.buf ∧ text st = "ab cd ef".toList ∧ st.idx = 6 ∧
    invoke env (.onMotion .kill (.backward .viword)) 'x' st = some st' ∧ text st' = "ab ef".toList ∧ lastKilled st' = some "cd ".toList :=
  ⟨run env false (type "ab cd ef" ++ [key (.motion (.backward .viword))]), run env false (type "ab cd ef" ++ [key (.motion (.backward .viword)), (.onMotion .kill (.backward .viword), 'x')]),
    session ok false _ (by decide) (by decide +kernel), Or.inr (Or.inl ⟨rfl, by decide +kernel⟩), by decide +kernel, fun h => h, by decide +kernel, by decide +kernel,
    by decide +kernel, by decide +kernel, by decide +kernel⟩

/-- And in vi mode, `dw` with the cursor on the first character. -/
example : ∃ st st', Session env st ∧ Operates st (.motion (.forward .viword)) .kill (.forward .viword) ∧ st.overwrite = none ∧
    ¬Missed env.chars (.forward .viword) st.buf ∧ text st = "ab cd".toList ∧ st.idx = 0 ∧
    invoke env (.motion (.forward .viword)) 'x' st = some st' ∧ text st' = "cd".toList ∧ lastKilled st' = some "ab ".toList :=
  ⟨run env true (type "ab cd" ++ [key (.setMode .viCommand), key (.motion .beginningOfLine), key (.pending .kill)]),
    run env true (type "ab cd" ++ [key (.setMode .viCommand), key (.motion .beginningOfLine), key (.pending .kill), (.motion (.forward .viword), 'x')]),
    session ok true _ (by decide) (by decide +kernel), Or.inl ⟨rfl, by decide +kernel⟩, by decide +kernel, fun h => h, by decide +kernel, by decide +kernel,
    by decide +kernel, by decide +kernel, by decide +kernel⟩

/-- Putting back what was killed last to the left of the cursor. -/
theorem put_left_inserts {E : Env} {st s1 : St} {t : List Char} (h : Inv E st) (hm : Main st) (ha : st.arg = {}) (hk : lastKilled st = some t)
    (he : putKilled false false st = some s1) : s1.buf = insertAt (st.buf.take (activeLength st)) st.idx t ∧ s1.mainLen = none := by
  obtain ⟨e, hse, -⟩ := save_edit st
  obtain ⟨s2, e2, i2, o2, -⟩ := maybeSave_ok h.edited
  rw [hse] at o2
  have ring : s2.ring[(s2.nextKill + 31) % 32]? = some (some t) := by
    rw [o2.ring, o2.nextKill]
    rw [lastKilled] at hk
    cases hr : st.ring[(st.nextKill + 31) % 32]? with
    | none => rw [hr] at hk; cases hk
    | some x => rw [hr] at hk; exact congrArg some hk
  rw [putKilled, show isPending st = false by rw [isPending, ha]; rfl] at he
  simp only [Bool.false_eq_true, if_false, e2, Option.bind_eq_bind, Option.bind_some, ring, Option.some.injEq, reduceCtorEq] at he
  have hm2 : Main s2 := o2.main hm
  obtain ⟨c1, c2, c3, c4, c5, c6⟩ := clear_text i2.idx hm2
  have hb := clear_buf s2 i2.idx hm2
  have hk2 := kept_clear s2
  have hml := (clear_idx s2).2
  rw [insertKilled] at he
  dsimp only at he
  generalize clearPrediction s2 = s3 at *
  rw [hk2.same.ring, ring] at he
  simp only [Bool.false_and, Bool.false_eq_true, if_false] at he
  have hc : getCount s3.arg 1 = 1 := by rw [hk2.arg, o2.arg]; show getCount st.arg 1 = 1; rw [ha]; rfl
  rw [hc] at he
  simp only [Int.toNat_one, List.replicate_one, List.flatten_cons, List.flatten_nil, List.append_nil] at he
  split at he
  · cases he
  · cases he
    refine ⟨?_, hml⟩
    have hbb : s3.buf = st.buf.take (activeLength st) := by
      rw [hb, active_congr o2.buf o2.idx o2.mainLen, o2.buf]; rfl
    have hii : s3.idx = st.idx := c1.trans o2.idx
    show insertAt s3.buf s3.idx t = _
    rw [hbb, hii]

/-- Killing text and putting it back at once leaves the line as it was. -/
theorem put_back_restores_partial {E : Env} {st st1 st2 : St} (s : Session E st) (cmd : Cmd) (f : Mec) (m : Motion) (c d : Char) (ho : Operates st cmd f m)
    (hd : f.delete = true) (hcp : f.copy = true) (hu : f.upper = false) (hl : f.lower = false) (hins : f.insert = false) (hov : st.overwrite = none)
    (hq : ¬Missed E.chars m st.buf) (hp : text st = st.buf) (hvi : st.mode ≠ .viCommand) (h1 : invoke E cmd c st = some st1) (hne : text st1 ≠ text st)
    (h2 : invoke E .putLeft d st1 = some st2) : text st2 = text st := by
  obtain ⟨r, hg, ht, hx, hk, ha, hmo⟩ := delete_removes_region_partial s cmd f m c ho hd hu hl hins hov hq h1
  obtain ⟨ha, -⟩ := ha hne
  have hcar := (operates_exec (E := E) c ho).2
  have g := session_good s
  have g1 := session_good (Session.command cmd c s hcar h1)
  have hidx := g.inv.idx
  rcases hx with hx | ⟨hv, -⟩
  · have hreg : (st.buf.drop (min st.idx r)).take (upTo m st.buf st.idx r - min st.idx r) ≠ [] := by
      intro hn
      apply hne
      rw [ht, hp]
      have : st.buf.drop (min st.idx r) = st.buf.drop (upTo m st.buf st.idx r) := by
        have hle : min st.idx r ≤ upTo m st.buf st.idx r := by rw [upTo]; split <;> omega
        have h3 := List.take_append_drop (upTo m st.buf st.idx r - min st.idx r) (st.buf.drop (min st.idx r))
        rw [hn, List.nil_append, List.drop_drop, show min st.idx r + (upTo m st.buf st.idx r - min st.idx r) = upTo m st.buf st.idx r by omega] at h3
        exact h3.symm
      rw [← this, List.take_append_drop]
    have hk := hk hcp hreg
    have h0 : Inv E { st1 with cur := some (.putLeft, d) } := { g1.inv with }
    have hcar1 : Careful st1 .putLeft := by rw [Careful, ha]; exact ⟨rfl, by decide⟩
    obtain ⟨s2, st2', he, hi, -, fin, -⟩ := invoke_ok g1 .putLeft d hcar1
    rw [h2] at hi
    have hi := Option.some.inj hi
    subst hi
    have he' : putKilled false false { st1 with cur := some (.putLeft, d) } = some s2 := he
    obtain ⟨q1, q2⟩ := put_left_inserts h0 g1.main ha hk he'
    have hact : activeLength s2 = s2.buf.length := by rw [activeLength, q2]
    rw [fin.text, hact, List.take_length, q1]
    show insertAt (st1.buf.take (activeLength st1)) st1.idx _ = _
    rw [← text_eq g1.inv.idx, ht, hx, hp]
    have hle : min st.idx r ≤ upTo m st.buf st.idx r := by rw [upTo]; split <;> omega
    have hll : (st.buf.take (min st.idx r)).length = min st.idx r := by rw [List.length_take]; omega
    generalize min st.idx r = a at *
    generalize upTo m st.buf st.idx r = b at *
    rw [insertAt, List.take_append_of_le_length (by omega), List.take_of_length_le (by omega),
      List.drop_append_of_le_length (by omega), List.drop_of_length_le (Nat.le_of_eq hll), List.nil_append]
    have h3 : (st.buf.drop a).take (b - a) ++ st.buf.drop b = st.buf.drop a := by
      have := List.take_append_drop (b - a) (st.buf.drop a)
      rw [List.drop_drop, show a + (b - a) = b by omega] at this
      exact this
    rw [List.append_assoc, h3, List.take_append_drop]
  · rw [hmo] at hv
    exact absurd hv hvi

/-- For instance, a word in the middle of the line. -/
example : ∃ st st1 st2, Session env st ∧ Operates st (.onMotion .kill (.backward .viword)) .kill (.backward .viword) ∧ st.overwrite = none ∧
    ¬Missed env.chars (.backward .viword) st.buf ∧ text st = st.buf ∧ st.mode ≠ .viCommand ∧ invoke env (.onMotion .kill (.backward .viword)) 'x' st = some st1 ∧
    text st1 ≠ text st ∧ invoke env .putLeft 'x' st1 = some st2 ∧ text st2 = "ab cd ef".toList :=
  ⟨run env false (type "ab cd ef" ++ [key (.motion (.backward .viword))]), run env false (type "ab cd ef" ++ [key (.motion (.backward .viword)), (.onMotion .kill (.backward .viword), 'x')]),
    run env false (type "ab cd ef" ++ [key (.motion (.backward .viword)), (.onMotion .kill (.backward .viword), 'x'), (.putLeft, 'x')]),
    session ok false _ (by decide) (by decide +kernel), Or.inr (Or.inl ⟨rfl, by decide +kernel⟩), by decide +kernel, fun h => h, by decide +kernel, by decide +kernel,
    by decide +kernel, by decide +kernel, by decide +kernel, by decide +kernel⟩

/-- An operator that changes the case of letters does so from the cursor to the place the motion goes to, and nowhere else. -/
theorem case_changes_region_partial {E : Env} {st st' : St} (s : Session E st) (cmd : Cmd) (f : Mec) (m : Motion) (c : Char) (ho : Operates st cmd f m)
    (hd : f.delete = false) (hins : f.insert = false) (hf : f.upper = true ∨ f.lower = true) (hp : text st = st.buf) (hq : ¬Missed E.chars m st.buf)
    (h : invoke E cmd c st = some st') :
    ∃ r, Goes E.chars m (getCount st.arg 1) (getCount st.arg 0) st.buf st.idx r ∧ (text st').length = (text st).length ∧
      ∀ (j : Nat) (x y : Char), (text st)[j]? = some x → (text st')[j]? = some y →
        if min st.idx r ≤ j ∧ j < upTo m st.buf st.idx r then cased E.chars f x y else y = x := by
  have g := session_good s
  obtain ⟨hex, hcar⟩ := operates_exec (E := E) c ho
  obtain ⟨s1, st1, he, hi, g', fin, -⟩ := invoke_ok g cmd c hcar
  rw [h] at hi
  have hi := Option.some.inj hi
  subst hi
  have hidx := g.inv.idx
  rw [hex] at he
  have h0 : Inv E { st with cur := some (cmd, c), arg := { st.arg with motion := f } } := { g.inv with }
  have hne : f ≠ .move := by rintro rfl; rcases hf with hf | hf <;> cases hf
  have hcase : ∀ x, cased E.chars f x (caseOf E.chars f x) := by
    intro x
    rw [caseOf, cased]
    cases hu : f.upper <;> cases hl : f.lower <;> simp_all
  rcases doMotion_lands g.ok h0 (Or.inl (no_cw hins)) hq he with ⟨r, hg, hr, hx⟩ | ⟨hx, hg⟩
  · have hT : st.buf.take (activeLength st) = st.buf := by rw [← text_eq hidx]; exact hp
    have b := execMotion_case h0 g.main hr hd hf hT hx
    rw [← fin.text] at b
    dsimp only at b hr
    rw [regionEnd_upTo] at b
    refine ⟨r, hg, ?_⟩
    have hab : min st.idx r ≤ upTo m st.buf st.idx r ∧ upTo m st.buf st.idx r ≤ st.buf.length := by
      rw [upTo]; split <;> omega
    have hal : min st.idx r ≤ st.buf.length := by omega
    generalize min st.idx r = a at *
    generalize upTo m st.buf st.idx r = e at *
    have hrl := region_length st.buf a e hab.2
    refine ⟨?_, ?_⟩
    · rw [b, hp]
      simp only [List.length_append, List.length_take, List.length_map, hrl, List.length_drop]; omega
    · intro j x y hxj hyj
      rw [hp] at hxj
      rw [b] at hyj
      have hta : (st.buf.take a).length = a := by rw [List.length_take]; omega
      have hmm : ((region st.buf a e).map (caseOf E.chars f)).length = e - a := by rw [List.length_map, hrl]
      by_cases h1 : j < a
      · rw [List.append_assoc, List.getElem?_append_left (by omega), List.getElem?_take_of_lt h1, hxj] at hyj
        rw [if_neg (by omega)]
        exact (Option.some.inj hyj).symm
      · by_cases h2 : j < e
        · rw [List.getElem?_append_left (by rw [List.length_append]; omega), List.getElem?_append_right (by omega), hta, List.getElem?_map, region,
            List.getElem?_take_of_lt (by omega), List.getElem?_drop, show a + (j - a) = j by omega, hxj] at hyj
          rw [if_pos (by omega), ← Option.some.inj hyj]
          exact hcase x
        · rw [List.getElem?_append_right (by rw [List.length_append]; omega), List.length_append, hta, hmm, List.getElem?_drop,
            show e + (j - (a + (e - a))) = j by omega, hxj] at hyj
          rw [if_neg (by omega)]
          exact (Option.some.inj hyj).symm
  · subst hx
    have ht : text st' = text st := by rw [fin.text, text_eq hidx]; rfl
    rcases hg with ⟨hg, hinc⟩ | ⟨-, hm, -⟩
    · have hup : upTo m st.buf st.idx st.idx = st.idx := by
        rw [upTo, if_neg, Nat.max_self]
        rintro ⟨h1, h2⟩
        rcases hinc h1 with h3 | h3
        · dsimp only at h3; omega
        · exact hne h3
      refine ⟨st.idx, hg, by rw [ht], ?_⟩
      intro j x y hxj hyj
      rw [hup, Nat.min_self, if_neg (by omega)]
      rw [ht, hxj] at hyj
      exact (Option.some.inj hyj).symm
    · exact absurd hm hne

/-- For instance, the word after the cursor is changed to upper case. -/
example : ∃ st st', Session env st ∧ Operates st (.onMotion { upper := true, toEnd := true } .forwardEmacs) { upper := true, toEnd := true } .forwardEmacs ∧ text st = st.buf ∧
    ¬Missed env.chars .forwardEmacs st.buf ∧ text st = "ab cd ef".toList ∧ st.idx = 3 ∧ invoke env (.onMotion { upper := true, toEnd := true } .forwardEmacs) 'x' st = some st' ∧
    text st' = "ab CD ef".toList := by
  refine ⟨run env false (type "ab cd ef" ++ [key (.motion (.backward .viword)), key (.motion (.backward .viword))]),
    run env false (type "ab cd ef" ++ [key (.motion (.backward .viword)), key (.motion (.backward .viword)), (.onMotion { upper := true, toEnd := true } .forwardEmacs, 'x')]),
    session ok false _ (by decide) (by decide +kernel), Or.inr (Or.inl ⟨rfl, by decide +kernel⟩), by decide +kernel, ?_, by decide +kernel, by decide +kernel,
    by decide +kernel, by decide +kernel⟩
  rw [show (run env false (type "ab cd ef" ++ [key (.motion (.backward .viword)), key (.motion (.backward .viword))])).buf = "ab cd ef".toList by decide +kernel]
  rintro ⟨c, a, hc, ha, hn⟩
  cases hc
  exact hn 0 'a' rfl rfl ha

end Yash.Edit
