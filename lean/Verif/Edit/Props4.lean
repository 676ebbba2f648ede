import Verif.Edit.Undo
import Verif.Edit.Sample
/-! # Going through the history -/
set_option autoImplicit false

namespace Yash.Edit
open Spec Sample

/-- The line that is found when the entry is gone to. -/
def recall (E : Env) (st : St) (e : Option Nat) : List Char :=
  if st.undoEntry = e then (st.undo[st.undoIndex]?.getD (0, [])).2 else original E e

theorem recall_congr {E : Env} {a b : St} (h1 : a.undo = b.undo) (h2 : a.undoIndex = b.undoIndex) (h3 : a.undoEntry = b.undoEntry) : recall E a = recall E b := by
  funext e; rw [recall, recall, h1, h2, h3]

/-- Leaving a line keeps it, and if it is as it was found, it also keeps what is known of all others. -/
theorem maybeSave_recall {E : Env} {st s0 : St} (h : Inv E st) (he : maybeSave st = some s0) : recall E s0 st.entry = st.buf.take (activeLength st) ∧
    (recall E st st.entry = st.buf.take (activeLength st) → recall E s0 = recall E st) := by
  have hu := h.undoIndex
  rw [maybeSave, if_neg (by omega)] at he
  dsimp only at he
  have hg : st.undo[st.undoIndex]? = some st.undo[st.undoIndex] := by simp
  have hact : activeLength { st with undoSave := st.idx } = activeLength st := rfl
  rw [hact] at he
  split at he
  · rename_i hee
    generalize st.undo[st.undoIndex] = x at hg
    obtain ⟨j, c⟩ := x
    rw [hg] at he
    dsimp only at he
    split at he
    · rename_i hc
      cases he
      refine ⟨?_, fun hr => ?_⟩
      · rw [recall]
        dsimp only
        rw [if_pos hee, List.getElem?_set_self hu]
        exact hc.symm
      · funext e
        rw [recall, recall]
        dsimp only
        rw [List.getElem?_set_self hu, hg]
        rfl
    · rename_i hc
      cases he
      have key : (saveUndo { st with undoSave := st.idx, undoIndex := st.undoIndex + 1 }).undo[st.undoIndex + 1]? = some (st.idx, st.buf.take (activeLength st)) := by
        rw [saveUndo]
        dsimp only
        have hl : (st.undo.take (st.undoIndex + 1)).length = st.undoIndex + 1 := by rw [List.length_take]; omega
        rw [List.getElem?_append_right (by omega), hl, Nat.sub_self]
        rfl
      refine ⟨?_, fun hr => ?_⟩
      · rw [recall, if_pos (by rfl)]
        show ((saveUndo { st with undoSave := st.idx, undoIndex := st.undoIndex + 1 }).undo[st.undoIndex + 1]?.getD (0, [])).2 = _
        rw [key]; rfl
      · rw [recall, if_pos hee, hg] at hr
        exact absurd hr.symm hc
  · rename_i hee
    split at he
    · rename_i hv
      cases he
      refine ⟨?_, fun _ => rfl⟩
      rw [recall]
      dsimp only
      rw [if_neg hee, ← h.value hee]
      exact hv.symm
    · rename_i hv
      split at he
      · cases he
        have key : (saveUndo { st with undoSave := st.idx, undo := [(st.undoSave, st.value)], undoIndex := 1 }).undo[1]? = some (st.idx, st.buf.take (activeLength st)) := rfl
        refine ⟨?_, fun hr => ?_⟩
        · rw [recall, if_pos (by rfl)]
          show ((saveUndo { st with undoSave := st.idx, undo := [(st.undoSave, st.value)], undoIndex := 1 }).undo[1]?.getD (0, [])).2 = _
          rw [key]; rfl
        · rw [recall, if_neg hee, ← h.value hee] at hr
          exact absurd hr.symm hv
      · cases he

theorem maybeSave_entry {st s0 : St} (he : maybeSave st = some s0) (h : st.undoEntry = st.entry) : s0.undoEntry = st.entry := by
  rw [maybeSave] at he
  split at he
  · cases he
  · dsimp only at he
    rw [if_pos h] at he
    split at he
    · split at he
      · cases he; exact h
      · cases he; rfl
    · cases he; rfl

/-- Where a step through the history leads: the entry is another, and its line is the one that is known. -/
structure Went (E : Env) (st st' : St) (l : Option Nat) : Prop where
  inv : Inv E st'
  main : st'.mainLen = none
  entry : st'.entry = l
  arg : st'.arg = st.arg
  undo : (recall E st' st.entry = st.buf.take (activeLength st)) ∧ (recall E st st.entry = st.buf.take (activeLength st) → recall E st' = recall E st)
  buf : st'.buf = recall E st' l
  kept : st.undoEntry = st.entry → st'.undoEntry = st.entry

theorem goToHistory_went {E : Env} {st st' : St} (h : Inv E st) (hm : Main st) (l : Option Nat) (hl : ∀ k, l = some k → k < E.hist.length) (p : CurPos)
    (he : goToHistory E l p st = some st') : Went E st st' l := by
  obtain ⟨st1, e1, i1, m1, n1, -⟩ := goToHistory_ok h hm l hl p
  rw [he] at e1
  have e1 := Option.some.inj e1
  subst e1
  obtain ⟨s0, e0, i0, o0, z0⟩ := maybeSave_ok h
  have hr := maybeSave_recall h e0
  simp only [goToHistory, bind, Option.bind, e0] at he
  have hk := kept_clear s0
  have i1' := i0.clear (o0.main hm)
  have hrc : recall E (clearPrediction s0) = recall E s0 := recall_congr hk.same.undo hk.same.undoIndex hk.same.undoEntry
  rw [← hrc] at hr
  have hen : st.undoEntry = st.entry → (clearPrediction s0).undoEntry = st.entry := fun hh => hk.same.undoEntry.trans (maybeSave_entry e0 hh)
  have harg : (clearPrediction s0).arg = st.arg := hk.arg.trans o0.arg
  generalize clearPrediction s0 = s1 at *
  have hu := i1'.undoIndex
  by_cases hee : l = s1.undoEntry
  · have hget : s1.undo[s1.undoIndex]? = some s1.undo[s1.undoIndex] := by simp [hu]
    have hmem := i1'.undo s1.undo[s1.undoIndex] (List.getElem_mem hu)
    generalize s1.undo[s1.undoIndex] = x at hget hmem
    obtain ⟨j, c⟩ := x
    simp only at hmem
    have hn : ¬c.length < j := by omega
    simp only [if_pos hee, hget, if_neg hn] at he
    cases he
    refine ⟨i1, m1, n1, harg, hr, ?_, hen⟩
    rw [recall]
    dsimp only
    rw [if_pos hee.symm, hget]
    rfl
  · simp only [if_neg hee] at he
    have hb : lineOf E l = some (original E l) := by
      cases l with
      | none => rfl
      | some k =>
        have := hl k rfl
        simp [lineOf, original, this]
    rw [hb] at he
    cases he
    refine ⟨i1, m1, n1, harg, hr, ?_, hen⟩
    rw [recall]
    dsimp only
    rw [if_neg fun h => hee h.symm]

/-- The state during a walk through the history: the line that was left is known, and the current line is the one that is known. -/
structure Walking (E : Env) (e : Option Nat) (t : List Char) (st : St) : Prop where
  inv : Inv E st
  main : Main st
  here : st.buf.take (activeLength st) = recall E st st.entry ∧ recall E st e = t ∨ st.entry = e ∧ st.buf.take (activeLength st) = t

theorem Walking.go {E : Env} {e : Option Nat} {t : List Char} {st st' : St} {l : Option Nat} (w : Walking E e t st) (g : Went E st st' l) : Walking E e t st' := by
  have ha : st'.buf.take (activeLength st') = st'.buf := by rw [activeLength, g.main]; exact List.take_length
  refine ⟨g.inv, (by intro m hm; rw [g.main] at hm; cases hm), Or.inl ⟨by rw [ha, g.buf, g.entry], ?_⟩⟩
  rcases w.here with ⟨h1, h2⟩ | ⟨h1, h2⟩
  · rw [g.undo.2 h1.symm]; exact h2
  · rw [← h1, g.undo.1]; exact h2

theorem Walking.reset {E : Env} {e : Option Nat} {t : List Char} {st : St} (w : Walking E e t st) : Walking E e t (resetState st) :=
  ⟨{ w.inv with }, w.main, w.here⟩

theorem historyAbsolute_walk {E : Env} (hE : E.Ok) {e : Option Nat} {t : List Char} {st st' : St} (w : Walking E e t st) (x : HistoryEnd) (p : CurPos)
    (h : historyAbsolute E x p st = some st') : Walking E e t st' := by
  rw [historyAbsolute] at h
  split at h
  · cases h; exact w.reset
  · split at h
    · split at h
      · cases h; exact w.reset
      · rename_i hne
        have hlen : 0 < E.hist.length := List.length_pos_iff.mpr hne
        cases hg : goToHistory E (endEntry E x) p st with
        | none => rw [hg] at h; cases h
        | some s1 =>
          rw [hg] at h
          cases h
          refine (w.go (goToHistory_went w.inv w.main _ ?_ p hg)).reset
          intro k hk
          cases x <;> simp only [endEntry, Option.some.injEq, reduceCtorEq] at hk <;> omega
    · dsimp only at h
      split at h
      · cases h; exact w.reset
      · split at h
        · cases h; exact w.reset
        · rename_i k hk
          cases hg : goToHistory E (some k) p st with
          | none => rw [hg] at h; cases h
          | some s1 =>
            rw [hg] at h
            cases h
            refine (w.go (goToHistory_went w.inv w.main _ ?_ p hg)).reset
            intro k' hk'
            cases hk'
            exact hE.number _ _ hk

theorem forwardEntries_place {E : Env} : ∀ (n : Nat) (l : Option Nat), (∀ k, l = some k → k < E.hist.length) →
    match forwardEntries E n l with
    | none => (E.hist.length : Int) < place E l + n
    | some l' => place E l' = place E l + n ∧ ∀ k, l' = some k → k < E.hist.length
  | 0, l, h => by rw [forwardEntries]; exact ⟨by omega, h⟩
  | n + 1, none, h => by
    rw [forwardEntries, if_pos rfl]
    simp only [place]
    omega
  | n + 1, some k, h => by
    have hk := h k rfl
    rw [forwardEntries, if_neg (by simp)]
    have key : (∀ j, nextEntry E (some k) = some j → j < E.hist.length) ∧ place E (nextEntry E (some k)) = k + 1 := by
      rw [nextEntry]
      split
      · rename_i hlt
        exact ⟨fun j hj => (by cases hj; exact hlt), by simp [place]⟩
      · refine ⟨fun j hj => (by cases hj), ?_⟩
        simp only [place]; omega
    have ih := forwardEntries_place n (nextEntry E (some k)) key.1
    rw [key.2] at ih
    revert ih
    cases forwardEntries E n (nextEntry E (some k)) with
    | none => intro ih; simp only [place] at ih ⊢; omega
    | some l' => intro ih; refine ⟨?_, ih.2⟩; rw [ih.1]; simp only [place]; omega

theorem backwardEntries_place {E : Env} : ∀ (n : Nat) (l : Option Nat), (∀ k, l = some k → k < E.hist.length) →
    match backwardEntries E n l with
    | none => place E l - n < 0
    | some l' => place E l' = place E l - n ∧ ∀ k, l' = some k → k < E.hist.length
  | 0, l, h => by rw [backwardEntries]; exact ⟨by omega, h⟩
  | n + 1, l, h => by
    rw [backwardEntries]
    have key : (prevEntry E l = none → place E l = 0) ∧ ∀ j, prevEntry E l = some j → j < E.hist.length ∧ (j : Int) = place E l - 1 := by
      cases l with
      | none =>
        rw [prevEntry]
        split
        · rename_i hh; exact ⟨fun _ => by simp [place, hh], fun j hj => by cases hj⟩
        · rename_i hh
          have hlen : 0 < E.hist.length := List.length_pos_iff.mpr hh
          refine ⟨fun hj => (by cases hj), fun j hj => ?_⟩
          simp only [Option.some.injEq] at hj
          simp only [place]
          omega
      | some k =>
        have hk := h k rfl
        cases k with
        | zero => exact ⟨fun _ => rfl, fun j hj => by cases hj⟩
        | succ k =>
          refine ⟨fun hj => (by cases hj), fun j hj => ?_⟩
          cases hj
          simp only [place]
          omega
    by_cases hp : prevEntry E l = none
    · have := key.1 hp
      rw [if_pos hp]
      dsimp only
      omega
    · rw [if_neg hp]
      obtain ⟨j, hj⟩ := Option.ne_none_iff_exists'.mp hp
      obtain ⟨k1, k2⟩ := key.2 j hj
      have ih := backwardEntries_place n (some j) (fun k hk => by cases hk; exact k1)
      rw [hj]
      revert ih
      cases backwardEntries E n (some j) with
      | none => intro ih; simp only [place] at ih k2 ⊢; omega
      | some l' => intro ih; refine ⟨?_, ih.2⟩; rw [ih.1]; simp only [place] at k2 ⊢; omega

/-- A relative motion through the history. -/
theorem historyRelative_goes {E : Env} {st st' : St} (hi : Inv E st) (hm : Main st) (n : Int) (p : CurPos) (h : historyRelative E n p st = some st') :
    isPending st = false ∧ 0 ≤ place E st.entry + n ∧ place E st.entry + n ≤ E.hist.length ∧
      (∃ s1 l, Went E st s1 l ∧ st' = resetState s1 ∧ place E l = place E st.entry + n) ∨
    (isPending st = true ∨ ¬(0 ≤ place E st.entry + n ∧ place E st.entry + n ≤ E.hist.length)) ∧ st' = alert st := by
  rw [historyRelative] at h
  split at h
  · rename_i hp
    cases h
    exact Or.inr ⟨Or.inl hp, rfl⟩
  · rename_i hp
    have hp : isPending st = false := by simpa using hp
    have hpl : 0 ≤ place E st.entry ∧ place E st.entry ≤ E.hist.length := by
      cases he : st.entry with
      | none => simp [place]
      | some k => have := hi.entry k he; simp only [place]; omega
    have key : match (if n > 0 then forwardEntries E n.toNat st.entry else backwardEntries E (-n).toNat st.entry) with
        | none => ¬(0 ≤ place E st.entry + n ∧ place E st.entry + n ≤ E.hist.length)
        | some l' => place E l' = place E st.entry + n ∧ ∀ k, l' = some k → k < E.hist.length := by
      by_cases hn : n > 0
      · rw [if_pos hn]
        have := forwardEntries_place n.toNat st.entry hi.entry
        revert this
        cases forwardEntries E n.toNat st.entry with
        | none => intro ih; dsimp only at ih ⊢; omega
        | some l => intro ih; dsimp only at ih ⊢; exact ⟨by omega, ih.2⟩
      · rw [if_neg hn]
        have := backwardEntries_place (-n).toNat st.entry hi.entry
        revert this
        cases backwardEntries E (-n).toNat st.entry with
        | none => intro ih; dsimp only at ih ⊢; omega
        | some l => intro ih; dsimp only at ih ⊢; exact ⟨by omega, ih.2⟩
    revert h key
    cases (if n > 0 then forwardEntries E n.toNat st.entry else backwardEntries E (-n).toNat st.entry) with
    | none =>
      intro h key
      cases h
      exact Or.inr ⟨Or.inr key, rfl⟩
    | some l =>
      intro h key
      dsimp only at h key
      cases hg : goToHistory E l p st with
      | none => rw [hg] at h; cases h
      | some s1 =>
        rw [hg] at h
        cases h
        refine Or.inl ⟨hp, ?_, ?_, s1, l, goToHistory_went hi hm l key.2 p hg, rfl, key.1⟩
        · rw [← key.1]; cases l <;> simp [place]
        · rw [← key.1]
          cases l with
          | none => simp [place]
          | some k => have := key.2 k rfl; simp only [place]; omega

theorem historyRelative_walk {E : Env} {e : Option Nat} {t : List Char} {st st' : St} (w : Walking E e t st) (n : Int) (p : CurPos)
    (h : historyRelative E n p st = some st') : Walking E e t st' := by
  rcases historyRelative_goes w.inv w.main n p h with ⟨-, -, -, s1, l, g, rfl, -⟩ | ⟨-, rfl⟩
  · exact (w.go g).reset
  · exact w.reset

theorem searchEntry_bound {E : Env} (fwd : Bool) (t : List Char) : ∀ (n : Nat) (l : Option Nat) (k : Nat), (∀ j, l = some j → j < E.hist.length) →
    searchEntry E fwd t n l = some k → k < E.hist.length
  | 0, l, k, hl, h => by cases h
  | n + 1, l, k, hl, h => by
    rw [searchEntry] at h
    have hb : ∀ j, (if fwd then nextEntry E l else prevEntry E l) = some j → j < E.hist.length := by
      intro j hj
      cases fwd with
      | true =>
        simp only [if_true] at hj
        cases l with
        | none =>
          rw [nextEntry] at hj; split at hj
          · cases hj
          · rename_i hne; cases hj; exact List.length_pos_iff.mpr hne
        | some i => rw [nextEntry] at hj; split at hj <;> cases hj; assumption
      | false =>
        simp only [Bool.false_eq_true, if_false] at hj
        cases l with
        | none =>
          rw [prevEntry] at hj; split at hj
          · cases hj
          · rename_i hne; cases hj; have := List.length_pos_iff.mpr hne; omega
        | some i =>
          have := hl i rfl
          cases i with
          | zero => cases hj
          | succ i => cases hj; omega
    split at h
    · cases h
    · rename_i j hj
      have := hb j hj
      split at h
      · cases h; exact this
      · exact searchEntry_bound fwd t n (some j) k (fun _ hh => by cases hh; exact this) h

theorem beginningLoop_walk {E : Env} {e : Option Nat} {t : List Char} (fwd : Bool) (x : List Char) : ∀ (n : Nat) (st st' : St), Walking E e t st →
    beginningLoop E fwd x n st = some st' → Walking E e t st'
  | 0, st, st', w, h => by cases h; exact w
  | n + 1, st, st', w, h => by
    rw [beginningLoop] at h
    split at h
    · split at h
      · exact w.go (goToHistory_went w.inv w.main none (fun k hk => by cases hk) _ h)
      · cases h; exact w.reset
    · rename_i k hk
      have hb : k < E.hist.length := by
        split at hk
        · cases hk
        · exact searchEntry_bound _ _ _ _ _ w.inv.entry hk
      split at h
      · cases h
      · rename_i s1 hg
        exact beginningLoop_walk fwd x n s1 st' (w.go (goToHistory_went w.inv w.main (some k) (fun j hj => by cases hj; exact hb) _ hg)) h

theorem beginningSearch_walk {E : Env} {e : Option Nat} {t : List Char} {st st' : St} (w : Walking E e t st) (fwd : Bool) (h : beginningSearch E fwd st = some st') :
    Walking E e t st' := by
  rw [beginningSearch] at h
  split at h
  · cases h; exact w.reset
  · cases hl : beginningLoop E (if getCount st.arg 1 < 0 then !fwd else fwd) (st.buf.take st.idx) (getCount st.arg 1).natAbs st with
    | none => simp only [hl, bind, Option.bind] at h; cases h
    | some s1 =>
      simp only [hl, bind, Option.bind] at h
      cases h
      exact (beginningLoop_walk _ _ _ _ _ w hl).reset

/-- A state between two commands of a walk. -/
theorem walk_step {E : Env} {e : Option Nat} {t : List Char} {st st' : St} (g : Good E st) (w : Walking E e t st) (cmd : Cmd) (c : Char) (hc : Travels cmd)
    (h : invoke E cmd c st = some st') : Good E st' ∧ Walking E e t st' := by
  obtain ⟨s1, st1, he, hi, g', fin, -⟩ := invoke_ok g cmd c (by cases cmd <;> first | trivial | exact hc.elim)
  rw [h] at hi
  have hi := Option.some.inj hi
  subst hi
  have w0 : Walking E e t { st with cur := some (cmd, c) } := ⟨{ w.inv with }, w.main, w.here⟩
  have w1 : Walking E e t s1 := by
    cases cmd <;> try exact hc.elim
    · exact historyAbsolute_walk g.ok w0 _ _ he
    · exact historyRelative_walk w0 _ _ he
    · exact historyRelative_walk w0 _ _ he
    · exact beginningSearch_walk w0 _ he
  refine ⟨g', g'.inv, g'.main, ?_⟩
  have hr : recall E st' = recall E s1 := recall_congr fin.kept.same.undo fin.kept.same.undoIndex fin.kept.same.undoEntry
  have he' : st'.entry = s1.entry := fin.kept.same.entry
  rw [← text_eq g'.inv.idx, fin.text, hr, he']
  exact w1.here

theorem walk_all {E : Env} {e : Option Nat} {t : List Char} : ∀ (cs : List (Cmd × Char)) (st st' : St), Good E st → Walking E e t st → (∀ x ∈ cs, Travels x.1) →
    invokeAll E cs st = some st' → Good E st' ∧ Walking E e t st'
  | [], st, st', g, w, _, h => by cases h; exact ⟨g, w⟩
  | (cmd, c) :: cs, st, st', g, w, hc, h => by
    rw [invokeAll] at h
    split at h
    · cases h
    · rename_i st1 h1
      obtain ⟨g1, w1⟩ := walk_step g w cmd c (hc _ (List.mem_cons_self ..)) h1
      exact walk_all cs st1 st' g1 w1 (fun x hx => hc x (List.mem_cons_of_mem _ hx)) h

/-! ## C78: the history -/

/-- Going through the history in any way and coming back finds the line as it was left, however it was edited before. -/
theorem travel_returns {E : Env} {st st' : St} (s : Session E st) (cs : List (Cmd × Char)) (hc : ∀ x ∈ cs, Travels x.1) (h : invokeAll E cs st = some st')
    (he : st'.entry = st.entry) : text st' = text st := by
  have g := session_good s
  have w : Walking E st.entry (text st) st := ⟨g.inv, g.main, Or.inr ⟨rfl, (text_eq g.inv.idx).symm⟩⟩
  obtain ⟨g', w'⟩ := walk_all cs st st' g w hc h
  rw [text_eq g'.inv.idx]
  rcases w'.here with ⟨h1, h2⟩ | ⟨-, h2⟩
  · rw [h1, he, h2]
  · exact h2

/-- For instance, a line is typed, and the history is looked through. -/
example : ∃ st st', Session env st ∧ text st = "ab".toList ∧ st.entry = none ∧
    (invokeAll env [key (.prevHistory .finish), key (.prevHistory .finish)] st).map text = some "ls".toList ∧
    invokeAll env [key (.prevHistory .finish), key (.prevHistory .finish), key (.nextHistory .finish), key (.nextHistory .start)] st = some st' ∧ st'.entry = st.entry :=
  ⟨run env false (type "ab"), run env false (type "ab" ++ [key (.prevHistory .finish), key (.prevHistory .finish), key (.nextHistory .finish), key (.nextHistory .start)]),
    session ok false _ (by decide) (by decide +kernel), by decide +kernel, by decide +kernel, by decide +kernel, by decide +kernel, by decide +kernel⟩

/-- Only one line is kept: if a line of the history is edited, what was typed before in the new line is lost. -/
theorem edit_forgets_line : ∃ st st', Session env st ∧ text st = "ab".toList ∧ st.entry = none ∧
    invokeAll env [key (.prevHistory .finish), (.selfInsert, 'x'), key (.nextHistory .finish)] st = some st' ∧ st'.entry = none ∧ text st' = [] :=
  ⟨run env false (type "ab"), run env false (type "ab" ++ [key (.prevHistory .finish), (.selfInsert, 'x'), key (.nextHistory .finish)]),
    session ok false _ (by decide) (by decide +kernel), by decide +kernel, by decide +kernel, by decide +kernel, by decide +kernel, by decide +kernel⟩

/-- The commands for the next and the previous line go as many lines as the count says, if there are so many, and otherwise do nothing.
An entry that was not edited is shown as it is in the history (`st.undoEntry` is the one that was edited last). -/
theorem history_goes {E : Env} {st st' : St} (s : Session E st) (cmd : Cmd) (n : Int) (p : CurPos) (c : Char) (hp : st.arg.motion = .move)
    (hc : cmd = .nextHistory p ∧ n = getCount st.arg 1 ∨ cmd = .prevHistory p ∧ n = -getCount st.arg 1) (h : invoke E cmd c st = some st') :
    (0 ≤ place E st.entry + n ∧ place E st.entry + n ≤ E.hist.length → place E st'.entry = place E st.entry + n) ∧
    (¬(0 ≤ place E st.entry + n ∧ place E st.entry + n ≤ E.hist.length) → st'.entry = st.entry ∧ text st' = text st) ∧
    (st'.entry ≠ st.entry → st'.entry ≠ st.undoEntry → text st' = original E st'.entry) := by
  have g := session_good s
  obtain ⟨s1, st1, he, hi, g', fin, -⟩ := invoke_ok g cmd c (by rcases hc with ⟨rfl, -⟩ | ⟨rfl, -⟩ <;> trivial)
  rw [h] at hi
  have hi := Option.some.inj hi
  subst hi
  have he : historyRelative E n p { st with cur := some (cmd, c) } = some s1 := by
    rcases hc with ⟨rfl, rfl⟩ | ⟨rfl, rfl⟩ <;> exact he
  have hi0 : Inv E { st with cur := some (cmd, c) } := { g.inv with }
  have hee : st'.entry = s1.entry := fin.kept.same.entry
  rcases historyRelative_goes hi0 g.main n p he with ⟨-, h1, h2, s2, l, w, rfl, hl⟩ | ⟨h1, rfl⟩
  · have hel : st'.entry = l := hee.trans w.entry
    dsimp only at h1 h2 hl
    refine ⟨fun _ => by rw [hel]; exact hl, fun hn => absurd ⟨h1, h2⟩ hn, fun hn hu => ?_⟩
    rw [fin.text]
    have ha : activeLength (resetState s2) = s2.buf.length := by simp only [activeLength, resetState, w.main]
    rw [ha]
    show s2.buf.take s2.buf.length = _
    rw [List.take_length, w.buf, hel]
    by_cases hr : recall E st st.entry = text st
    · rw [w.undo.2 (by rw [← text_eq hi0.idx]; exact hr)]
      show recall E st l = _
      rw [recall, if_neg (by rw [← hel]; exact fun h => hu h.symm)]
    · -- the line was recorded, and all that is recorded is about it
      have hne : s2.undoEntry = st.entry := by
        have hx := w.undo.1
        rw [← text_eq hi0.idx] at hx
        have hx : recall E s2 st.entry = text st := hx
        rw [recall] at hx
        split at hx
        · assumption
        · rename_i hno
          exfalso
          apply hr
          rw [recall]
          split
          · rename_i heq
            exact absurd (w.kept heq) hno
          · exact hx
      rw [recall, if_neg (by rw [hne, ← hel]; exact fun h => hn h.symm)]
  · have hel : st'.entry = st.entry := hee
    have hpe : isPending { st with cur := some (cmd, c) } = false := by rw [isPending]; simp [hp]
    rw [hpe] at h1
    have h1 : ¬(0 ≤ place E st.entry + n ∧ place E st.entry + n ≤ E.hist.length) := by
      rcases h1 with h1 | h1
      · cases h1
      · exact h1
    refine ⟨fun hh => absurd hh h1, fun _ => ⟨hel, ?_⟩, fun hn => absurd hel hn⟩
    rw [fin.text, text_eq g.inv.idx]
    rfl

/-- For instance, two lines back from a line that is being typed; three are too many. -/
example : ∃ st st', Session env st ∧ st.arg.motion = .move ∧ getCount st.arg 1 = 2 ∧ place env st.entry = 2 ∧ text st = "ab".toList ∧
    invoke env (.prevHistory .finish) 'x' st = some st' ∧ place env st'.entry = 0 ∧ text st' = "ls".toList :=
  ⟨run env false (type "ab" ++ [(.digit, '2')]), run env false (type "ab" ++ [(.digit, '2'), (.prevHistory .finish, 'x')]),
    session ok false _ (by decide) (by decide +kernel), by decide +kernel, by decide +kernel, by decide +kernel, by decide +kernel, by decide +kernel, by decide +kernel,
    by decide +kernel⟩

theorem search_back {E : Env} (t : List Char) : ∀ (n : Nat) (l : Option Nat) (p : Nat), place E l = p → (∀ k, l = some k → k < E.hist.length) → p < n →
    (∀ k, searchEntry E false t n l = some k → k < p ∧ t <+: E.hist[k]?.getD [] ∧ ∀ j, k < j → j < p → ¬t <+: E.hist[j]?.getD []) ∧
    (searchEntry E false t n l = none → ∀ j, j < p → ¬t <+: E.hist[j]?.getD [])
  | 0, l, p, hp, hl, hn => by omega
  | n + 1, l, p, hp, hl, hn => by
    have hprev : prevEntry E l = if p = 0 then none else some (p - 1) := by
      cases l with
      | none =>
        have hp : E.hist.length = p := by simp only [place] at hp; omega
        rw [prevEntry, ← hp]
        simp
      | some k =>
        have hp : k = p := by simp only [place] at hp; omega
        cases k with
        | zero => rw [prevEntry, ← hp]; rfl
        | succ k => rw [prevEntry, ← hp]; rfl
    have hb : ∀ k, l = some k ∨ l = none → p ≤ E.hist.length := by
      rintro k (rfl | rfl)
      · have := hl k rfl; simp only [place] at hp; omega
      · simp only [place] at hp; omega
    have hb : p ≤ E.hist.length := by cases l with
      | none => exact hb 0 (Or.inr rfl)
      | some k => exact hb k (Or.inl rfl)
    rw [searchEntry]
    simp only [Bool.false_eq_true, if_false, hprev]
    by_cases h0 : p = 0
    · simp only [h0, if_true]
      refine ⟨fun k hk => (by cases hk), fun _ j hj => by omega⟩
    · simp only [if_neg h0]
      by_cases hpre : t.isPrefixOf (E.hist[p - 1]?.getD []) = true
      · simp only [hpre, if_true]
        refine ⟨fun k hk => ?_, fun hh => by cases hh⟩
        have hk := Option.some.inj hk
        subst hk
        exact ⟨by omega, List.isPrefixOf_iff_prefix.mp hpre, fun j h1 h2 => by omega⟩
      · simp only [if_neg hpre]
        have hpre : ¬t <+: E.hist[p - 1]?.getD [] := fun hh => hpre (List.isPrefixOf_iff_prefix.mpr hh)
        obtain ⟨i1, i2⟩ := search_back (E := E) t n (some (p - 1)) (p - 1) rfl (fun k hk => by have := Option.some.inj hk; omega) (by omega)
        refine ⟨fun k hk => ?_, fun hh j hj => ?_⟩
        · obtain ⟨a, b, c⟩ := i1 k hk
          refine ⟨by omega, b, fun j h1 h2 => ?_⟩
          by_cases hj : j = p - 1
          · rw [hj]; exact hpre
          · exact c j h1 (by omega)
        · by_cases hj' : j = p - 1
          · rw [hj']; exact hpre
          · exact i2 hh j (by omega)

theorem search_forward {E : Env} (t : List Char) : ∀ (n i : Nat), i < E.hist.length → E.hist.length < n + i →
    (∀ k, searchEntry E true t n (some i) = some k → i < k ∧ k < E.hist.length ∧ t <+: E.hist[k]?.getD [] ∧ ∀ j, i < j → j < k → ¬t <+: E.hist[j]?.getD []) ∧
    (searchEntry E true t n (some i) = none → ∀ j, i < j → j < E.hist.length → ¬t <+: E.hist[j]?.getD [])
  | 0, i, hi, hn => by omega
  | n + 1, i, hi, hn => by
    rw [searchEntry]
    simp only [if_true, nextEntry]
    by_cases hlt : i + 1 < E.hist.length
    · simp only [if_pos hlt]
      by_cases hpre : t.isPrefixOf (E.hist[i + 1]?.getD []) = true
      · simp only [hpre, if_true]
        refine ⟨fun k hk => ?_, fun hh => by cases hh⟩
        have hk := Option.some.inj hk
        subst hk
        exact ⟨by omega, hlt, List.isPrefixOf_iff_prefix.mp hpre, fun j h1 h2 => by omega⟩
      · simp only [if_neg hpre]
        have hpre : ¬t <+: E.hist[i + 1]?.getD [] := fun hh => hpre (List.isPrefixOf_iff_prefix.mpr hh)
        obtain ⟨i1, i2⟩ := search_forward t n (i + 1) hlt (by omega)
        refine ⟨fun k hk => ?_, fun hh j h1 h2 => ?_⟩
        · obtain ⟨a, b, c, d⟩ := i1 k hk
          refine ⟨by omega, b, c, fun j h1 h2 => ?_⟩
          by_cases hj : j = i + 1
          · rw [hj]; exact hpre
          · exact d j (by omega) h2
        · by_cases hj' : j = i + 1
          · rw [hj']; exact hpre
          · exact i2 hh j (by omega) h2
    · simp only [if_neg hlt]
      refine ⟨fun k hk => (by cases hk), fun _ j h1 h2 => by omega⟩

/-- Searching for the beginning of the line goes to the nearest line of the history that begins with the text before the cursor; if there is
none, nothing happens, except that searching forward comes back to the line that is not in the history if that begins with the text
(or is empty now, see `edit_forgets_line`). -/
theorem beginning_search_finds {E : Env} {st st' : St} (s : Session E st) (fwd : Bool) (c : Char) (ha : st.arg = {})
    (h : invoke E (.beginningSearch fwd) c st = some st') :
    let t := (text st).take st.idx
    let found := fun k => k < E.hist.length ∧ t <+: E.hist[k]?.getD [] ∧ if fwd then place E st.entry < k else (k : Int) < place E st.entry
    let between := fun (j k : Nat) => if fwd then j < k else k < j
    (∃ k, st'.entry = some k ∧ found k ∧ ∀ j, found j → ¬between j k) ∨
    (∀ k, ¬found k) ∧ (st'.entry = st.entry ∧ text st' = text st ∨ fwd = true ∧ st'.entry = none ∧ (t <+: text st' ∨ text st' = [])) := by
  intro t found between
  have g := session_good s
  obtain ⟨s1, st1, he, hi, g', fin, -⟩ := invoke_ok g (.beginningSearch fwd) c trivial
  rw [h] at hi
  have hi := Option.some.inj hi
  subst hi
  have hi0 : Inv E { st with cur := some (.beginningSearch fwd, c) } := { g.inv with }
  have he : beginningSearch E fwd { st with cur := some (.beginningSearch fwd, c) } = some s1 := he
  have hcount : getCount ({ st with cur := some (.beginningSearch fwd, c) } : St).arg 1 = 1 := by rw [ha]; rfl
  have ht : t = st.buf.take st.idx := by
    show (text st).take st.idx = _
    rw [text_eq g.inv.idx, List.take_take, Nat.min_eq_left (active_bounds st g.inv.idx).1]
  rw [beginningSearch, if_neg (by rw [isPending]; simp [ha])] at he
  simp only [hcount, show ¬((1 : Int) < 0) by omega, if_false, show (1 : Int).natAbs = 1 from rfl, bind, Option.bind] at he
  rw [← ht] at he
  rw [beginningLoop] at he
  dsimp only at he
  have hee : st'.entry = s1.entry := fin.kept.same.entry
  have hpl : 0 ≤ place E st.entry ∧ place E st.entry ≤ E.hist.length := by
    cases he : st.entry with
    | none => simp [place]
    | some k => have := g.inv.entry k he; simp only [place]; omega
  have spec : (∀ k, (if (fwd && st.entry = none) = true then none else searchEntry E fwd t (E.hist.length + 1) st.entry) = some k → found k ∧ ∀ j, found j → ¬between j k) ∧
      ((if (fwd && st.entry = none) = true then none else searchEntry E fwd t (E.hist.length + 1) st.entry) = none → ∀ k, ¬found k) := by
    cases fwd with
    | true =>
      cases hen : st.entry with
      | none =>
        refine ⟨fun k hk => by simp at hk, fun _ k hk => ?_⟩
        have h3 := hk.2.2
        rw [if_pos rfl, hen] at h3
        have h1 := hk.1
        simp only [place] at h3
        omega
      | some i =>
        have hib := g.inv.entry i hen
        obtain ⟨i1, i2⟩ := search_forward t (E.hist.length + 1) i hib (by omega)
        refine ⟨fun k hk => ?_, fun hh k hk => ?_⟩
        · obtain ⟨a, b, c', d⟩ := i1 k (by simpa using hk)
          refine ⟨⟨b, c', ?_⟩, fun j hj hb => ?_⟩
          · rw [if_pos rfl, hen]; simp only [place]; omega
          · have hb : j < k := hb
            have h3 := hj.2.2
            rw [if_pos rfl, hen] at h3
            simp only [place] at h3
            exact d j (by omega) hb hj.2.1
        · have h3 := hk.2.2
          rw [if_pos rfl, hen] at h3
          simp only [place] at h3
          exact i2 (by simpa using hh) k (by omega) hk.1 hk.2.1
    | false =>
      obtain ⟨p, hp⟩ : ∃ p : Nat, place E st.entry = p := ⟨(place E st.entry).toNat, by omega⟩
      obtain ⟨i1, i2⟩ := search_back t (E.hist.length + 1) st.entry p hp g.inv.entry (by omega)
      refine ⟨fun k hk => ?_, fun hh k hk => ?_⟩
      · obtain ⟨a, b, d⟩ := i1 k (by simpa using hk)
        refine ⟨⟨by omega, b, ?_⟩, fun j hj hb => ?_⟩
        · simp only [Bool.false_eq_true, if_false]; omega
        · have hb : k < j := hb
          have h3 := hj.2.2
          simp only [Bool.false_eq_true, if_false] at h3
          exact d j hb (by omega) hj.2.1
      · have h3 := hk.2.2
        simp only [Bool.false_eq_true, if_false] at h3
        exact i2 (by simpa using hh) k (by omega) hk.2.1
  revert he spec
  generalize (if (fwd && st.entry = none) = true then none else searchEntry E fwd t (E.hist.length + 1) st.entry) = r
  intro he spec
  cases r with
  | some k =>
    dsimp only at he
    have hf := spec.1 k rfl
    cases hg : goToHistory E (some k) .keep { st with cur := some (.beginningSearch fwd, c) } with
    | none => rw [hg] at he; cases he
    | some s2 =>
      rw [hg] at he
      dsimp only at he
      rw [beginningLoop] at he
      have he := Option.some.inj he
      have w := goToHistory_went hi0 g.main (some k) (fun j hj => by cases hj; exact hf.1.1) .keep hg
      refine Or.inl ⟨k, ?_, hf⟩
      rw [hee, ← he]
      exact w.entry
  | none =>
    refine Or.inr ⟨spec.2 rfl, ?_⟩
    dsimp only at he
    by_cases hnl : (fwd && newLineMatches t { st with cur := some (.beginningSearch fwd, c) }) = true
    · rw [if_pos hnl] at he
      rw [Bool.and_eq_true] at hnl
      obtain ⟨hf, hnl⟩ := hnl
      cases hg : goToHistory E none .keep { st with cur := some (.beginningSearch fwd, c) } with
      | none => rw [hg] at he; cases he
      | some s2 =>
        rw [hg] at he
        have he := Option.some.inj he
        have w := goToHistory_went hi0 g.main none (fun j hj => by cases hj) .keep hg
        have hen : st'.entry = none := by rw [hee, ← he]; exact w.entry
        by_cases hsame : st.entry = none
        · refine Or.inl ⟨hen.trans hsame.symm, ?_⟩
          exact travel_returns s [(.beginningSearch fwd, c)] (by intro x hx; cases hx with
            | head => trivial
            | tail _ hx => cases hx) (by rw [invokeAll, h]; rfl) (hen.trans hsame.symm)
        · refine Or.inr ⟨hf, hen, ?_⟩
          rw [fin.text, ← he]
          have hact : activeLength (resetState s2) = s2.buf.length := by simp only [activeLength, resetState, w.main]
          rw [hact]
          show t <+: s2.buf.take s2.buf.length ∨ s2.buf.take s2.buf.length = []
          rw [List.take_length, w.buf]
          rw [newLineMatches] at hnl
          dsimp only at hnl
          by_cases hu : st.undoEntry = none
          · rw [if_pos hu] at hnl
            have hlt := g.inv.undoIndex
            have hget : st.undo[st.undoIndex]? = some st.undo[st.undoIndex] := by simp
            generalize st.undo[st.undoIndex] = x at hget
            obtain ⟨j, b⟩ := x
            rw [hget] at hnl
            dsimp only at hnl
            have hun : st.undoEntry ≠ st.entry := fun hh => hsame (hh.symm.trans hu)
            have hw1 : recall E s2 st.entry = text st := by rw [text_eq g.inv.idx]; exact w.undo.1
            by_cases hr : recall E st st.entry = text st
            · left
              rw [w.undo.2 (by rw [← text_eq hi0.idx]; exact hr)]
              show t <+: recall E st none
              rw [recall, if_pos hu, hget]
              exact List.isPrefixOf_iff_prefix.mp hnl
            · right
              rw [recall, if_neg]
              · rfl
              · intro hs2
                apply hr
                rw [recall, if_neg hun, ← hw1, recall, if_neg (by rw [hs2]; exact fun hh => hsame hh.symm)]
          · rw [if_neg hu] at hnl
            cases hnl
    · rw [if_neg hnl] at he
      have he := Option.some.inj he
      left
      refine ⟨by rw [hee, ← he]; rfl, ?_⟩
      rw [fin.text, ← he, text_eq g.inv.idx]
      rfl

/-- For instance, the line that begins with `c` is found, and nothing else. -/
example : ∃ st st', Session env st ∧ st.arg = {} ∧ text st = "c".toList ∧ place env st.entry = 2 ∧ invoke env (.beginningSearch false) 'x' st = some st' ∧
    st'.entry = some 1 ∧ text st' = "cd /".toList :=
  ⟨run env false (type "c"), run env false (type "c" ++ [(.beginningSearch false, 'x')]),
    session ok false _ (by decide) (by decide +kernel), by decide +kernel, by decide +kernel, by decide +kernel, by decide +kernel, by decide +kernel, by decide +kernel⟩

end Yash.Edit
