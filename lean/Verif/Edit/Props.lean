import Verif.Edit.Undo
import Verif.Edit.Sample
/-! # Properties of line editing -/
set_option autoImplicit false

namespace Yash.Edit
open Spec Sample

/-! ## C74: commands neither fail nor leave the line -/

/-- Whatever commands have been executed on this line and those before it, the next one finds every text it needs: no assertion
fails, no array is accessed out of its bounds, and the cursor stays in the line, before or at the end of what has been typed. -/
theorem line_editing_is_safe_partial {E : Env} {st : St} (s : Session E st) (cmd : Cmd) (c : Char) (h : Careful st cmd) :
    ∃ st', invoke E cmd c st = some st' ∧ st'.idx ≤ st'.buf.length ∧ st'.idx ≤ (text st').length ∧ (text st') <+: st'.buf := by
  obtain ⟨s1, st', -, hi, g, -⟩ := invoke_ok (session_good s) cmd c h
  refine ⟨st', hi, g.inv.idx, ?_, ?_⟩
  · rw [text_eq g.inv.idx]; exact text_length st' g.inv.idx
  · rw [text_eq g.inv.idx]; exact List.take_prefix _ _

/-- For instance, after typing and killing a word of it, the text can be put back. -/
example : ∃ st, Session env st ∧ Careful st .putLeft ∧ text st = "ab ".toList ∧ st.ring[0]? = some (some "cd".toList) ∧
    (invoke env .putLeft 'x' st).map text = some "ab cd".toList :=
  ⟨run env false (type "ab cd" ++ [key (.onMotion .kill (.backward .bigword))]), session ok false _ (by decide) (by decide +kernel),
    ⟨by decide +kernel, by decide +kernel⟩, by decide +kernel, by decide +kernel, by decide +kernel⟩

/-- What is missing in the theorem above: if the count is zero and the cursor is at the beginning of the line, an assertion about
the place of the cursor fails when text is put back. -/
theorem put_zero_times_fails : ∃ st, Session env st ∧ text st = [] ∧ getCount st.arg 1 = 0 ∧ st.arg.motion = .move ∧
    invoke env .putLeft 'x' st = none ∧ invoke env .put 'x' st = none :=
  ⟨run env false (type "ab" ++ [key (.onLine .kill), (.digit, '0')]), session ok false _ (by decide) (by decide +kernel),
    by decide +kernel, by decide +kernel, by decide +kernel, by decide +kernel, by decide +kernel⟩

/-- The other thing that is missing: the command that replaces what was put last by what was killed before can be used after a put that was refused because an
operator was pending, and then removes a part of the line that need not exist any more. -/
theorem put_pop_after_refused_put_fails :
    (invokeAll env (type "abcdef" ++ [key (.onMotion .kill .backwardChar), key .putLeft, key (.onLine { delete := true }), key (.pending { delete := true }),
      key .putLeft]) (start env false blank)).isSome = true ∧
    invokeAll env (type "abcdef" ++ [key (.onMotion .kill .backwardChar), key .putLeft, key (.onLine { delete := true }), key (.pending { delete := true }),
      key .putLeft, key .putPop]) (start env false blank) = none := ⟨by decide +kernel, by decide +kernel⟩

/-- Safety is not all: if no prediction is shown, replacing no blanks by a space makes the length of the typed part wrap around, and what
is after the cursor is lost. -/
theorem just_one_space_loses_text : ∃ st st', Session env st ∧ text st = "abcd".toList ∧ st.idx = 2 ∧ getCount st.arg 1 = 1 ∧
    invoke env .justOneSpace 'x' st = some st' ∧ text st' = "ab ".toList ∧ (invoke env .acceptLine 'x' st').map finalize = some "ab ".toList :=
  ⟨run env false (type "abcd" ++ [key (.motion .backwardChar), key (.motion .backwardChar)]),
    run env false (type "abcd" ++ [key (.motion .backwardChar), key (.motion .backwardChar), (.justOneSpace, 'x')]),
    session ok false _ (by decide) (by decide +kernel), by decide +kernel, by decide +kernel, by decide +kernel, by decide +kernel, by decide +kernel, by decide +kernel⟩

/-! ## C73: undo -/

/-- If a command that records the line changes it, undoing brings back the line, and the cursor. -/
theorem undo_restores_line {E : Env} {st st1 st2 : St} (s : Session E st) (cmd : Cmd) (c d : Char) (h : Careful st cmd) (hr : Records st cmd)
    (h1 : invoke E cmd c st = some st1) (hne : text st1 ≠ text st) (hn : getCount st1.arg 1 = 1) (h2 : invoke E .undo d st1 = some st2) :
    text st2 = text st ∧ (st2.idx = cursorBefore st cmd ∨
      st2.mode = .viCommand ∧ cursorBefore st cmd = (text st).length ∧ st2.idx + 1 = (text st).length) := by
  have g1 := session_good (Session.command cmd c s h h1)
  obtain ⟨p, hv⟩ := recorded_view (session_good s) cmd c h h1 hr hne
  obtain ⟨st2', he, g2, hen, hmo, hz, ht, hs, hx⟩ := cancel_view g1 .undo (-getCount st1.arg 1) d trivial rfl
  rw [h2] at he
  have he := Option.some.inj he
  subst he
  rw [hn, hv] at ht hx
  have hm : (moved (-1) (⟨(cursorBefore st cmd, text st) :: p, (st1.idx, text st1), []⟩ : Zip)).present = (cursorBefore st cmd, text st) := rfl
  rw [hm] at ht hx
  refine ⟨ht, ?_⟩
  rcases hx with hx | ⟨x1, x2, x3, x4⟩
  · exact Or.inl hx
  · rw [ht] at x2
    dsimp only at x2 x3 x4
    exact Or.inr ⟨x1, x2, by omega⟩

/-- For instance, after a word is killed. -/
example : ∃ st st1 st2, Session env st ∧ Careful st (.onMotion .kill (.backward .bigword)) ∧ Records st (.onMotion .kill (.backward .bigword)) ∧
    invoke env (.onMotion .kill (.backward .bigword)) 'x' st = some st1 ∧ text st1 = "ab ".toList ∧ getCount st1.arg 1 = 1 ∧
    invoke env .undo 'x' st1 = some st2 ∧ text st2 = "ab cd".toList ∧ st2.idx = 5 :=
  ⟨run env false (type "ab cd"), run env false (type "ab cd" ++ [(.onMotion .kill (.backward .bigword), 'x')]), run env false (type "ab cd" ++ [(.onMotion .kill (.backward .bigword), 'x'), (.undo, 'x')]),
    session ok false _ (by decide) (by decide +kernel), trivial, trivial, by decide +kernel, by decide +kernel, by decide +kernel, by decide +kernel,
    by decide +kernel, by decide +kernel⟩

/-- Replacing a character in vi mode does not record the line: `x`, `r` and `u` bring back the line before `x`. -/
theorem replace_char_not_recorded : ∃ st st1 st2, Session env st ∧ text st = "ab".toList ∧ st.arg.char = some .viReplaceChar ∧
    invoke env .expectChar 'z' st = some st1 ∧ text st1 = "az".toList ∧ getCount st1.arg 1 = 1 ∧ invoke env .undo 'x' st1 = some st2 ∧
    text st2 = "abc".toList :=
  ⟨run env true (type "abc" ++ [key (.setMode .viCommand), key (.delete .forwardChar), key (.char .viReplaceChar)]),
    run env true (type "abc" ++ [key (.setMode .viCommand), key (.delete .forwardChar), key (.char .viReplaceChar), (.expectChar, 'z')]),
    run env true (type "abc" ++ [key (.setMode .viCommand), key (.delete .forwardChar), key (.char .viReplaceChar), (.expectChar, 'z'), (.undo, 'x')]),
    session ok true _ (by decide) (by decide +kernel), by decide +kernel, by decide +kernel, by decide +kernel, by decide +kernel, by decide +kernel,
    by decide +kernel, by decide +kernel⟩

/-- A new change forgets what has been undone: cancelling undo after it has nothing to bring back. -/
theorem change_forgets_undone {E : Env} {st st1 st2 : St} (s : Session E st) (cmd : Cmd) (c d : Char) (h : Careful st cmd) (hr : Records st cmd)
    (h1 : invoke E cmd c st = some st1) (hne : text st1 ≠ text st)
    (h2 : invoke E .cancelUndo d st1 = some st2 ∧ 0 ≤ getCount st1.arg 1 ∨ invoke E .cancelUndoAll d st1 = some st2) : text st2 = text st1 := by
  have g1 := session_good (Session.command cmd c s h h1)
  obtain ⟨p, hv⟩ := recorded_view (session_good s) cmd c h h1 hr hne
  have key : ∀ (n : Int), 0 ≤ n → moved n (view st1) = view st1 := by
    intro n hn
    rw [moved, if_neg (by omega)]
    exact times_stuck _ _ (by rw [hv]; rfl) _
  have hp : (view st1).present.2 = text st1 := by rw [hv]
  rcases h2 with ⟨h2, hn⟩ | h2
  · obtain ⟨st2', he, -, -, -, -, ht, -⟩ := cancel_view g1 .cancelUndo (getCount st1.arg 1) d trivial rfl
    rw [h2] at he
    have he := Option.some.inj he
    subst he
    rw [ht, key _ hn, hp]
  · obtain ⟨st2', he, -, -, -, -, ht, -⟩ := cancel_view g1 .cancelUndoAll countMax d trivial rfl
    rw [h2] at he
    have he := Option.some.inj he
    subst he
    rw [ht, key _ (by decide), hp]

/-- For instance, if a word is killed after another one was killed and that was undone. -/
example : ∃ st st1 st2, Session env st ∧ Careful st (.onMotion .kill (.backward .bigword)) ∧ Records st (.onMotion .kill (.backward .bigword)) ∧
    text st = "ab cd".toList ∧ st.undo.length = 3 ∧ invoke env (.onMotion .kill (.backward .bigword)) 'x' st = some st1 ∧ text st1 = "cd".toList ∧
    invoke env .cancelUndo 'x' st1 = some st2 ∧ 0 ≤ getCount st1.arg 1 ∧ text st2 = "cd".toList :=
  ⟨run env false (type "ab cd" ++ [(.onMotion .kill (.backward .bigword), 'x'), key .undo, key (.motion (.backward .bigword))]),
    run env false (type "ab cd" ++ [(.onMotion .kill (.backward .bigword), 'x'), key .undo, key (.motion (.backward .bigword)), (.onMotion .kill (.backward .bigword), 'x')]),
    run env false (type "ab cd" ++ [(.onMotion .kill (.backward .bigword), 'x'), key .undo, key (.motion (.backward .bigword)), (.onMotion .kill (.backward .bigword), 'x'), (.cancelUndo, 'x')]),
    session ok false _ (by decide) (by decide +kernel), trivial, trivial, by decide +kernel, by decide +kernel, by decide +kernel, by decide +kernel,
    by decide +kernel, by decide +kernel, by decide +kernel⟩

theorem cancel_arg {n : Int} {st st' : St} (h : cancelUndo n st = some st') : st'.arg = {} := by
  rw [cancelUndo] at h
  cases hm : maybeSave st with
  | none => rw [hm] at h; cases h
  | some s =>
    rw [hm] at h
    simp only [Option.bind_eq_bind, Option.bind_some] at h
    split at h
    · cases h; rfl
    · split at h
      · cases h; rfl
      · split at h
        · cases h
        · split at h
          · cases h
          · cases h; rfl

theorem invoke_cancel_arg {E : Env} {st st' : St} {cmd : Cmd} {c : Char} {n : Int} (hc : cmd = .undo ∨ cmd = .cancelUndo) (hi : st.idx ≤ st.buf.length)
    (hn : exec E cmd c { st with cur := some (cmd, c) } = cancelUndo n { st with cur := some (cmd, c) }) (h : invoke E cmd c st = some st')
    (g : Good E st) : st'.arg = {} := by
  obtain ⟨s1, st1, he, hi', -, f, -⟩ := invoke_ok g cmd c (by rcases hc with rfl | rfl <;> trivial)
  rw [h] at hi'
  have hi' := Option.some.inj hi'
  subst hi'
  rw [hn] at he
  rw [f.kept.arg]
  exact (cancel_arg he : s1.arg = {})

/-- Undoing one line at a time. -/
theorem undos {E : Env} (cmd : Cmd) (f : Zip → Zip) (hf : cmd = .undo ∧ f = Zip.back ∨ cmd = .cancelUndo ∧ f = Zip.forward) :
    ∀ (k : Nat) (cs : List (Cmd × Char)) (st st' : St), Good E st → getCount st.arg 1 = 1 → cs.length = k → (∀ x ∈ cs, x.1 = cmd) →
      invokeAll E cs st = some st' → Good E st' ∧ getCount st'.arg 1 = 1 ∧ Sim (view st') (Zip.times f k (view st))
  | 0, cs, st, st', g, hn, hl, hc, h => by
    cases cs with
    | nil => cases h; exact ⟨g, hn, .refl _⟩
    | cons x cs => simp at hl
  | k + 1, [], st, st', g, hn, hl, hc, h => by simp at hl
  | k + 1, (cmd', c) :: cs, st, st', g, hn, hl, hc, h => by
    have hcc := hc _ (List.mem_cons_self ..)
    dsimp only at hcc
    subst hcc
    rw [invokeAll] at h
    split at h
    · cases h
    · rename_i st1 h1
      have step : ∃ n : Int, exec E cmd' c { st with cur := some (cmd', c) } = cancelUndo n { st with cur := some (cmd', c) } ∧
          moved n (view st) = f (view st) ∧ Careful st cmd' ∧ (cmd' = .undo ∨ cmd' = .cancelUndo) := by
        rcases hf with ⟨rfl, rfl⟩ | ⟨rfl, rfl⟩
        · exact ⟨-getCount st.arg 1, rfl, by rw [hn]; rfl, trivial, Or.inl rfl⟩
        · exact ⟨getCount st.arg 1, rfl, by rw [hn]; rfl, trivial, Or.inr rfl⟩
      obtain ⟨n, hx, hm, hcar, hor⟩ := step
      obtain ⟨st1', he, g1, -, -, -, -, hs, -⟩ := cancel_view g cmd' n c hcar hx
      rw [h1] at he
      have he := Option.some.inj he
      subst he
      have ha := invoke_cancel_arg hor g.inv.idx hx h1 g
      obtain ⟨g2, hn2, hs2⟩ := undos cmd' f hf k cs st1 st' g1 (by rw [ha]; rfl) (by simpa using hl)
        (fun x hx => hc x (List.mem_cons_of_mem _ hx)) h
      refine ⟨g2, hn2, hs2.trans ?_⟩
      rw [Zip.times, ← hm]
      rcases hf with ⟨rfl, rfl⟩ | ⟨rfl, rfl⟩
      · exact Sim.times (fun _ _ => Sim.back) _ _ _ hs
      · exact Sim.times (fun _ _ => Sim.forward) _ _ _ hs

/-- Cancelling undo as many times as it was done brings back the line, however long it has been, if the last undo still changed it. -/
theorem cancel_undo_restores_line {E : Env} {st st1 st2 st3 : St} (s : Session E st) (hn : getCount st.arg 1 = 1)
    (us rs : List (Cmd × Char)) (c : Char) (hu : ∀ x ∈ us, x.1 = .undo) (hr : ∀ x ∈ rs, x.1 = .cancelUndo) (hl : rs.length = us.length + 1)
    (h1 : invokeAll E us st = some st1) (h2 : invoke E .undo c st1 = some st2) (hne : text st2 ≠ text st1)
    (h3 : invokeAll E rs st2 = some st3) : text st3 = text st := by
  have g := session_good s
  obtain ⟨g1, hn1, hs1⟩ := undos .undo Zip.back (Or.inl ⟨rfl, rfl⟩) us.length us st st1 g hn rfl hu h1
  obtain ⟨st2', he, g2, -, -, -, ht2, hs2, -⟩ := cancel_view g1 .undo (-getCount st1.arg 1) c trivial rfl
  rw [h2] at he
  have he := Option.some.inj he
  subst he
  have ha := invoke_cancel_arg (Or.inl rfl) g1.inv.idx rfl h2 g1
  obtain ⟨g3, hn3, hs3⟩ := undos .cancelUndo Zip.forward (Or.inr ⟨rfl, rfl⟩) (us.length + 1) rs st2 st3 g2 (by rw [ha]; rfl) hl hr h3
  rw [hn1] at hs2 ht2
  have hv1 : (view st1).present.2 = text st1 := by rw [view, snap_present]
  have hpast : (view st1).past ≠ [] := by
    intro hp
    apply hne
    rw [ht2, ← hv1]
    show (Zip.times Zip.back 1 (view st1)).present.2 = _
    rw [Zip.times, Zip.times, Zip.back, hp]
  have hpast' : (Zip.times Zip.back us.length (view st)).past ≠ [] := by
    intro hp
    apply hpast
    have := hs1.1
    rw [hp] at this
    simpa using this
  have h4 : Sim (view st2) (Zip.times Zip.back (us.length + 1) (view st)) := by
    refine hs2.trans ?_
    rw [times_snoc]
    exact Sim.back hs1
  have h5 := hs3.trans (Sim.times (fun _ _ => Sim.forward) (us.length + 1) _ _ h4)
  rw [times_forward_back _ _ hpast'] at h5
  have hv3 : (view st3).present.2 = text st3 := by rw [view, snap_present]
  have hv : (view st).present.2 = text st := by rw [view, snap_present]
  rw [← hv3, ← hv]
  exact h5.2.1

/-- For instance, if two words were killed, and both are brought back. -/
example : ∃ st st1 st2 st3, Session env st ∧ getCount st.arg 1 = 1 ∧ text st = [] ∧ invokeAll env [key .undo] st = some st1 ∧
    invoke env .undo 'x' st1 = some st2 ∧ text st2 ≠ text st1 ∧ text st2 = "ab cd".toList ∧ invokeAll env [key .cancelUndo, key .cancelUndo] st2 = some st3 :=
  ⟨run env false (type "ab cd" ++ [(.onMotion .kill (.backward .bigword), 'x'), (.onMotion .kill (.backward .bigword), 'x')]), run env false (type "ab cd" ++ [(.onMotion .kill (.backward .bigword), 'x'), (.onMotion .kill (.backward .bigword), 'x'), key .undo]),
    run env false (type "ab cd" ++ [(.onMotion .kill (.backward .bigword), 'x'), (.onMotion .kill (.backward .bigword), 'x'), key .undo, (.undo, 'x')]),
    run env false (type "ab cd" ++ [(.onMotion .kill (.backward .bigword), 'x'), (.onMotion .kill (.backward .bigword), 'x'), key .undo, (.undo, 'x'), key .cancelUndo, key .cancelUndo]),
    session ok false _ (by decide) (by decide +kernel), by decide +kernel, by decide +kernel, by decide +kernel, by decide +kernel, by decide +kernel,
    by decide +kernel, by decide +kernel⟩

theorem moved_back (z : Zip) : ∃ k, k = 999999999 ∧ moved (-countMax) z = Zip.times Zip.back k z := ⟨_, rfl, by
  rw [moved, if_pos (by decide)]
  congr 1⟩

theorem moved_forward (z : Zip) : ∃ k, k = 999999999 ∧ moved countMax z = Zip.times Zip.forward k z := ⟨_, rfl, by
  rw [moved, if_neg (by decide)]
  congr 1⟩

theorem view_past {E : Env} {st : St} (h : Inv E st) : (view st).past.length ≤ st.undo.length := by
  have hu := h.undoIndex
  rw [view, Zip.snap, zip]
  split <;> split <;> simp <;> omega

/-- Undoing everything brings back the line as it was before it was edited: an empty line, or the line of the history that was
gone to. -/
theorem undo_all_restores_original {E : Env} {st st' : St} (s : Session E st) (c : Char) (hl : st.undo.length ≤ 999999999)
    (h : invoke E .undoAll c st = some st') : text st' = original E st.entry ∧ st'.entry = st.entry := by
  have g := session_good s
  obtain ⟨st1, he, -, hen, -, -, ht, -⟩ := cancel_view g .undoAll (-countMax) c trivial rfl
  rw [h] at he
  have he := Option.some.inj he
  subst he
  refine ⟨?_, hen⟩
  rw [ht, ← oldest_zip g.inv, ← oldest_snap (zip st) (st.idx, text st)]
  have hvp := view_past g.inv
  obtain ⟨k, hk, hm⟩ := moved_back (view st)
  rw [hm, oldest_back _ _ (by omega)]
  rfl

/-- For instance, in a line of the history. -/
example : ∃ st st', Session env st ∧ st.entry = some 1 ∧ text st = "cd /tmp".toList ∧ st.undo.length ≤ 999999999 ∧ invoke env .undoAll 'x' st = some st' ∧
    text st' = "cd /".toList :=
  ⟨run env false (type "ab" ++ [key (.prevHistory .finish)] ++ type "tmp"),
    run env false (type "ab" ++ [key (.prevHistory .finish)] ++ type "tmp" ++ [(.undoAll, 'x')]),
    session ok false _ (by decide) (by decide +kernel), by decide +kernel, by decide +kernel, by decide +kernel, by decide +kernel, by decide +kernel⟩

theorem times_back_future : ∀ (n : Nat) (z : Zip), (Zip.times Zip.back n z).past.length + (Zip.times Zip.back n z).future.length = z.past.length + z.future.length
  | 0, z => rfl
  | n + 1, ⟨p, x, f⟩ => by
    rw [Zip.times, times_back_future n]
    cases p with
    | nil => rfl
    | cons y p => simp only [Zip.back, List.length_cons]; omega

/-- The last of the lines. -/
def newest (z : Zip) : List Char := (z.future.getLast?.getD z.present).2

theorem newest_forward : ∀ (n : Nat) (z : Zip), z.future.length ≤ n → (Zip.times Zip.forward n z).present.2 = newest z
  | 0, ⟨p, x, f⟩, h => by
    cases f with
    | nil => rfl
    | cons y f => simp at h
  | n + 1, ⟨p, x, f⟩, h => by
    rw [Zip.times]
    cases f with
    | nil => rw [show (⟨p, x, []⟩ : Zip).forward = ⟨p, x, []⟩ from rfl, newest_forward n _ (by simp)]
    | cons y f =>
      rw [show (⟨p, x, y :: f⟩ : Zip).forward = ⟨x :: p, y, f⟩ from rfl, newest_forward n _ (by simp only [List.length_cons] at h ⊢; omega)]
      rw [newest, newest]
      dsimp only
      rw [List.getLast?_cons]
      rfl

theorem newest_back : ∀ (n : Nat) (z : Zip), newest (Zip.times Zip.back n z) = newest z
  | 0, z => rfl
  | n + 1, ⟨p, x, f⟩ => by
    rw [Zip.times, newest_back n]
    cases p with
    | nil => rfl
    | cons y p =>
      rw [newest, newest]
      dsimp only [Zip.back]
      rw [List.getLast?_cons]
      rfl

theorem Sim.newest {a b : Zip} (h : Sim a b) : newest a = newest b := by
  rw [Edit.newest, Edit.newest]
  have h3 := h.2.2
  have : (a.future.map (·.2)).getLast? = (b.future.map (·.2)).getLast? := by rw [h3]
  rw [List.getLast?_map, List.getLast?_map] at this
  cases ha : a.future.getLast? <;> cases hb : b.future.getLast? <;> rw [ha, hb] at this <;> simp at this
  · exact h.2.1
  · exact this

/-- After a change, undoing everything and cancelling all of it brings back the line. -/
theorem cancel_undo_all_restores_line {E : Env} {st st1 st2 st3 : St} (s : Session E st) (cmd : Cmd) (c d e : Char) (h : Careful st cmd) (hr : Records st cmd)
    (h1 : invoke E cmd c st = some st1) (hne : text st1 ≠ text st) (hl : st1.undo.length ≤ 999999999)
    (h2 : invoke E .undoAll d st1 = some st2) (h3 : invoke E .cancelUndoAll e st2 = some st3) : text st3 = text st1 := by
  have g1 := session_good (Session.command cmd c s h h1)
  obtain ⟨p, hv⟩ := recorded_view (session_good s) cmd c h h1 hr hne
  obtain ⟨st2', he, g2, -, -, -, -, hs2, -⟩ := cancel_view g1 .undoAll (-countMax) d trivial rfl
  rw [h2] at he
  have he := Option.some.inj he
  subst he
  obtain ⟨st3', he, g3, -, -, -, ht3, -, -⟩ := cancel_view g2 .cancelUndoAll countMax e trivial rfl
  rw [h3] at he
  have he := Option.some.inj he
  subst he
  obtain ⟨k, hk, hm⟩ := moved_back (view st1)
  rw [hm] at hs2
  have hvp := view_past g1.inv
  have hf : (view st2).future.length ≤ k := by
    have h4 : (view st2).future.length = (Zip.times Zip.back k (view st1)).future.length := by
      have := congrArg List.length hs2.2.2
      simpa using this
    have h5 := times_back_future k (view st1)
    have h6 : (view st1).future.length = 0 := by rw [hv]; rfl
    omega
  obtain ⟨k', hk', hm3⟩ := moved_forward (view st2)
  rw [ht3, hm3, hk', ← hk, newest_forward _ _ hf, hs2.newest, newest_back, hv]
  rfl

/-- For instance, after a word was killed. -/
example : ∃ st st1 st2 st3, Session env st ∧ Careful st (.onMotion .kill (.backward .bigword)) ∧ Records st (.onMotion .kill (.backward .bigword)) ∧
    invoke env (.onMotion .kill (.backward .bigword)) 'x' st = some st1 ∧ text st1 = "ab ".toList ∧ text st1 ≠ text st ∧ st1.undo.length ≤ 999999999 ∧
    invoke env .undoAll 'x' st1 = some st2 ∧ text st2 = [] ∧ invoke env .cancelUndoAll 'x' st2 = some st3 :=
  ⟨run env false (type "ab cd"), run env false (type "ab cd" ++ [(.onMotion .kill (.backward .bigword), 'x')]), run env false (type "ab cd" ++ [(.onMotion .kill (.backward .bigword), 'x'), (.undoAll, 'x')]),
    run env false (type "ab cd" ++ [(.onMotion .kill (.backward .bigword), 'x'), (.undoAll, 'x'), (.cancelUndoAll, 'x')]),
    session ok false _ (by decide) (by decide +kernel), trivial, trivial, by decide +kernel, by decide +kernel, by decide +kernel, by decide +kernel,
    by decide +kernel, by decide +kernel, by decide +kernel⟩

end Yash.Edit
