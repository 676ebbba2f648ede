import Verif.Edit.Step2
/-! # Sessions, and what undo does in them -/
set_option autoImplicit false

namespace Yash.Edit
open Spec

/-- What holds between two commands. -/
structure Good (E : Env) (st : St) : Prop where
  ok : E.Ok
  inv : Inv E st
  main : Main st
  pop : Poppable st

theorem Finished.inv {E : Env} {st st' : St} (f : Finished E st st') (h : Inv E st) : Inv E st' :=
  Inv.of_same (b := { st with last := st.cur }) { h with } f.kept.same f.bound

theorem invoke_ok {E : Env} {st : St} (g : Good E st) (cmd : Cmd) (c : Char) (hcar : Careful st cmd) :
    ∃ s1 st', exec E cmd c { st with cur := some (cmd, c) } = some s1 ∧ invoke E cmd c st = some st' ∧ Good E st' ∧ Finished E s1 st' ∧
      (Records st cmd → Undoable (cursorBefore st cmd) st s1) := by
  have h1 : Inv E { st with cur := some (cmd, c) } := { g.inv with }
  obtain ⟨s1, he, hi, hcu, hrec, hput, hpop⟩ := exec_ok g.ok h1 g.main g.pop cmd c rfl (by cases cmd <;> exact hcar)
  have f : Finished E s1 (finish E s1) := finish_ok hi.idx
  refine ⟨s1, finish E s1, he, by rw [invoke_eq, he]; rfl, ⟨g.ok, f.inv hi, f.main, ?_⟩, f, ?_⟩
  · intro hl
    rw [f.kept.last, f.kept.popped] at hl
    rw [f.kept.same.ring, f.kept.same.lastPut, f.kept.putStart, f.kept.putLen, f.active]
    have fresh : Fresh s1 := by
      rcases hcu with hcu | ⟨x, d, hcu⟩
      · dsimp only at hcu hl
        rw [hcu] at hl
        simp only [Option.map_some, Option.some.injEq] at hl
        rcases hl with hl | hl | hl | hl
        · exact hput (Or.inr (Or.inr hl))
        · exact hput (Or.inl hl)
        · exact hput (Or.inr (Or.inl hl))
        · exact hpop hl.1 hl.2
      · dsimp only at hl
        rw [hcu] at hl
        simp at hl
    rcases fresh with hf | ⟨hf, hm⟩
    · exact Or.inl hf
    · refine Or.inr ?_
      rw [activeLength, hm]
      exact hf
  · intro hr
    exact hrec (by cases cmd <;> exact hr)

theorem start_ok {E E' : Env} (hE : E'.Ok) {st : St} (h : Inv E st) (vi : Bool) : Good E' (start E' vi st) := by
  have key : ∀ s : St, s.buf = [] → s.mainLen = some 0 → s.idx = 0 → s.entry = none → s.value = [] → s.last = none → s.undo = [(0, [])] → s.undoIndex = 0 →
      s.undoEntry = none → s.undoSave = 0 → s.ring = st.ring → s.nextKill = st.nextKill → s.lastPut = st.lastPut → s.lastFind = st.lastFind → s.lastEdit = st.lastEdit →
      Inv E' s ∧ Main s := by
    intro s e1 e2 e3 e4 e5 e6 e7 e8 e9 e10 e11 e12 e13 e14 e15
    refine ⟨⟨?_, ?_, ?_, ?_, ?_, ?_, ?_, ?_, ?_, ?_, ?_, ?_, ?_, ?_⟩, ?_⟩
    · simp [e3]
    · simp [e7, e8]
    · simp [e7]
    · simp [e4, e9]
    · simp [e4]
    · rw [e11]; exact h.ringLen
    · rw [e12]; exact h.next
    · rw [e13]; exact h.put
    · rw [e11]; exact h.ring
    · rw [e11, e12]; exact h.ringEmpty
    · rw [e14]; exact h.find
    · rw [e15]; exact h.edit
    · exact ⟨0, by simp [e7, e9, original]⟩
    · simp [e4, e9]
    · intro m hm; omega
  rw [start]
  have k := key (setOverwriting false (resetState (saveUndo { st with
    buf := [], mainLen := some 0, idx := 0, entry := none, value := []
    mode := if vi then .viInsert else .emacs
    last := none, undo := [], undoIndex := 0, undoSave := 0, undoEntry := none, state := .editing })))
    rfl rfl rfl rfl rfl rfl rfl rfl rfl rfl rfl rfl rfl rfl rfl
  have hl : (setOverwriting false (resetState (saveUndo { st with
    buf := [], mainLen := some 0, idx := 0, entry := none, value := []
    mode := if vi then .viInsert else .emacs
    last := none, undo := [], undoIndex := 0, undoSave := 0, undoEntry := none, state := .editing }))).last = none := rfl
  generalize setOverwriting false (resetState (saveUndo { st with
    buf := [], mainLen := some 0, idx := 0, entry := none, value := []
    mode := if vi then .viInsert else .emacs
    last := none, undo := [], undoIndex := 0, undoSave := 0, undoEntry := none, state := .editing })) = s at k hl
  obtain ⟨k, km⟩ := k
  split
  · rename_i f _
    obtain ⟨u1, u2, u3, u4, u5, u6⟩ := update_text (E := E') f k.idx km
    refine ⟨hE, k.of_same u1.same u4, u3, ?_⟩
    intro hh
    rw [u1.last, hl] at hh
    simp at hh
  · refine ⟨hE, k, km, ?_⟩
    intro hh
    rw [hl] at hh
    simp at hh

theorem blank_inv (E : Env) : ∃ E', Inv E' { blank with undo := [(0, [])] } := by
  refine ⟨{ E with hist := [] }, ⟨by decide, by decide, by decide, by decide, by simp [blank], by decide, by decide, by decide, by simp [blank], by simp [blank], by simp [blank], by simp [blank], ⟨0, rfl⟩, by simp [blank]⟩⟩

theorem session_good {E : Env} {st : St} (s : Session E st) : Good E st := by
  induction s with
  | first E vi hE =>
    obtain ⟨E', h⟩ := blank_inv E
    exact start_ok (st := { blank with undo := [(0, [])] }) hE h vi
  | command cmd c _ hcar he ih =>
    obtain ⟨s1, st', -, he', g, -⟩ := invoke_ok ih cmd c hcar
    rw [he] at he'
    cases he'
    exact g
  | line vi _ hE ih => exact start_ok hE ih.inv vi

/-! ## Undo -/

/-- The lines undo goes through if the current one is recorded. -/
def view (st : St) : Zip := (zip st).snap (st.idx, text st)

/-- The texts are the same. -/
def Sim (a b : Zip) : Prop := a.past.map (·.2) = b.past.map (·.2) ∧ a.present.2 = b.present.2 ∧ a.future.map (·.2) = b.future.map (·.2)

theorem Sim.refl (a : Zip) : Sim a a := ⟨rfl, rfl, rfl⟩
theorem Sim.symm {a b : Zip} (h : Sim a b) : Sim b a := ⟨h.1.symm, h.2.1.symm, h.2.2.symm⟩
theorem Sim.trans {a b c : Zip} (h : Sim a b) (h' : Sim b c) : Sim a c := ⟨h.1.trans h'.1, h.2.1.trans h'.2.1, h.2.2.trans h'.2.2⟩

theorem Sim.back {a b : Zip} (h : Sim a b) : Sim a.back b.back := by
  obtain ⟨pa, xa, fa⟩ := a
  obtain ⟨pb, xb, fb⟩ := b
  obtain ⟨h1, h2, h3⟩ := h
  dsimp only at h1 h2 h3
  cases pa with
  | nil =>
    cases pb with
    | nil => exact ⟨rfl, h2, h3⟩
    | cons y pb => simp at h1
  | cons x pa =>
    cases pb with
    | nil => simp at h1
    | cons y pb =>
      simp only [List.map_cons, List.cons.injEq] at h1
      exact ⟨h1.2, h1.1, by simp [h2, h3, Zip.back]⟩

theorem Sim.forward {a b : Zip} (h : Sim a b) : Sim a.forward b.forward := by
  obtain ⟨pa, xa, fa⟩ := a
  obtain ⟨pb, xb, fb⟩ := b
  obtain ⟨h1, h2, h3⟩ := h
  dsimp only at h1 h2 h3
  cases fa with
  | nil =>
    cases fb with
    | nil => exact ⟨h1, h2, rfl⟩
    | cons y fb => simp at h3
  | cons x fa =>
    cases fb with
    | nil => simp at h3
    | cons y fb =>
      simp only [List.map_cons, List.cons.injEq] at h3
      exact ⟨by simp [h1, h2, Zip.forward], h3.1, h3.2⟩

theorem Sim.times {f : Zip → Zip} (hf : ∀ a b, Sim a b → Sim (f a) (f b)) : ∀ (n : Nat) (a b : Zip), Sim a b → Sim (Zip.times f n a) (Zip.times f n b)
  | 0, _, _, h => h
  | n + 1, a, b, h => Sim.times hf n (f a) (f b) (hf a b h)

theorem Sim.moved {a b : Zip} (h : Sim a b) (n : Int) : Sim (moved n a) (moved n b) := by
  rw [Edit.moved, Edit.moved]
  split
  · exact Sim.times (fun _ _ => Sim.back) _ _ _ h
  · exact Sim.times (fun _ _ => Sim.forward) _ _ _ h

theorem times_snoc (f : Zip → Zip) : ∀ (n : Nat) (z : Zip), Zip.times f (n + 1) z = f (Zip.times f n z)
  | 0, _ => rfl
  | n + 1, z => by rw [Zip.times, times_snoc f n (f z), Zip.times]

theorem forward_back (z : Zip) (h : z.past ≠ []) : z.back.forward = z := by
  obtain ⟨p, x, f⟩ := z
  cases p with
  | nil => exact absurd rfl h
  | cons y p => rfl

theorem times_forward_back : ∀ (n : Nat) (z : Zip), (Zip.times Zip.back n z).past ≠ [] → Zip.times Zip.forward (n + 1) (Zip.times Zip.back (n + 1) z) = z
  | 0, z, h => forward_back z h
  | n + 1, z, h => by
    rw [times_snoc Zip.back (n + 1) z, Zip.times, forward_back _ h]
    refine times_forward_back n z ?_
    intro hn
    rw [times_snoc] at h
    apply h
    rw [Zip.back, hn]
    exact hn

/-- A command that goes through the recorded lines. -/
theorem cancel_view {E : Env} {st : St} (g : Good E st) (cmd : Cmd) (n : Int) (c : Char) (hcar : Careful st cmd)
    (hb : exec E cmd c { st with cur := some (cmd, c) } = cancelUndo n { st with cur := some (cmd, c) }) :
    ∃ st', invoke E cmd c st = some st' ∧ Good E st' ∧ st'.entry = st.entry ∧ st'.mode = st.mode ∧ zip st' = moved n (view st) ∧
      text st' = (moved n (view st)).present.2 ∧ Sim (view st') (moved n (view st)) ∧
      (st'.idx = (moved n (view st)).present.1 ∨ st'.mode = .viCommand ∧ (moved n (view st)).present.1 = (text st').length ∧
        0 < (moved n (view st)).present.1 ∧ st'.idx + 1 = (moved n (view st)).present.1) := by
  obtain ⟨s1, st', he, hi, g', f, -⟩ := invoke_ok g cmd c hcar
  have h1 : Inv E { st with cur := some (cmd, c) } := { g.inv with }
  obtain ⟨s1', he', i1, hen, hml, hz, hpr, hmo, -, -⟩ := cancelUndo_ok h1 g.main n
  rw [hb, he'] at he
  have he := Option.some.inj he
  subst he
  have hv : record (some { st with cur := some (cmd, c) }.idx) { st with cur := some (cmd, c) } = view st := by
    rw [view, text_eq g.inv.idx]; rfl
  rw [hv] at hz
  have hzip : zip st' = zip s1' := f.kept.same.toUndo.zip
  have ht : text st' = s1'.buf := by rw [f.text, activeLength, hml, List.take_length]
  have hpr' : s1'.idx = (zip s1').present.1 ∧ s1'.buf = (zip s1').present.2 := by rw [← hpr]; exact ⟨rfl, rfl⟩
  rw [hz] at hpr'
  have ht' : text st' = (moved n (view st)).present.2 := by rw [ht, hpr'.2]
  refine ⟨st', hi, g', f.kept.same.entry.trans hen, f.kept.mode.trans hmo, by rw [hzip, hz], ht', ?_, ?_⟩
  · rw [view, hzip, hz, Zip.snap, if_pos ht']
    exact ⟨rfl, ht', rfl⟩
  · rcases f.idx with hx | ⟨x1, x2, x3, x4⟩
    · exact Or.inl (hx.trans hpr'.1)
    · refine Or.inr ⟨x1, ?_, by omega, by omega⟩
      rw [← hpr'.1, x2, ← f.text]

theorem snap_sim {a b : Zip} (h : Sim a b) (i j : Nat) (t : List Char) : Sim (a.snap (i, t)) (b.snap (j, t)) := by
  rw [Zip.snap, Zip.snap]
  dsimp only
  by_cases ht : t = a.present.2
  · rw [if_pos ht, if_pos (ht.trans h.2.1)]
    exact ⟨h.1, rfl, h.2.2⟩
  · rw [if_neg ht, if_neg (by rw [← h.2.1]; exact ht)]
    exact ⟨by simp [h.1, h.2.1], rfl, rfl⟩

/-- The view after a command that recorded the line and changed it. -/
theorem recorded_view {E : Env} {st st' : St} (g : Good E st) (cmd : Cmd) (c : Char) (hcar : Careful st cmd) (hi : invoke E cmd c st = some st')
    (hr : Records st cmd) (hne : text st' ≠ text st) :
    ∃ p, view st' = ⟨(cursorBefore st cmd, text st) :: p, (st'.idx, text st'), []⟩ := by
  obtain ⟨s1, st1, he, hi', g', f, hu⟩ := invoke_ok g cmd c hcar
  rw [hi] at hi'
  cases hi'
  obtain ⟨-, hu⟩ := hu hr
  have hzip : zip st' = zip s1 := f.kept.same.toUndo.zip
  rw [← text_eq g.inv.idx] at hu
  generalize cursorBefore st cmd = i at *
  have hsn : ∃ p, ((zip st).snap (i, text st)).present = (i, text st) ∧ ((zip st).snap (i, text st)).past = p := ⟨_, snap_present _ _, rfl⟩
  obtain ⟨p, hp1, hp2⟩ := hsn
  rw [view, hzip]
  rcases hu with hz | ⟨hz, hb, hx, hml⟩ | ⟨hml, y, hz⟩
  · refine ⟨p, ?_⟩
    rw [hz]
    generalize (zip st).snap (i, text st) = z at *
    rw [Zip.snap, if_neg (by rw [hp1]; exact hne), hp1, hp2]
  · exfalso
    apply hne
    rw [f.text, text_eq g.inv.idx, activeLength, activeLength, hb, hx, hml]
  · have ht : text st' = s1.buf := by rw [f.text, activeLength, hml, List.take_length]
    refine ⟨p, ?_⟩
    rw [hz, ← ht]
    generalize (zip st).snap (i, text st) = z at *
    have h1 : z.snap (y, text st') = ⟨(i, text st) :: p, (y, text st'), []⟩ := by
      rw [Zip.snap, if_neg (by rw [hp1]; exact hne), hp1, hp2]
    rw [h1, Zip.snap]
    simp

/-- The first of the lines. -/
def oldest (z : Zip) : List Char := (z.past.getLast?.getD z.present).2

theorem oldest_zip {E : Env} {st : St} (h : Inv E st) : oldest (zip st) = original E st.entry := by
  rw [zip]
  split
  · rename_i he
    obtain ⟨j, h0⟩ := h.first
    have hu := h.undoIndex
    rw [oldest]
    dsimp only
    rw [List.getLast?_reverse, List.head?_eq_getElem?]
    by_cases hz : st.undoIndex = 0
    · rw [hz, h0]
      simp [he]
    · rw [List.getElem?_take_of_lt (by omega), h0]
      simp [he]
  · rename_i he
    exact h.value he

theorem oldest_snap (z : Zip) (x : Nat × List Char) : oldest (z.snap x) = oldest z := by
  rw [Zip.snap]
  split
  · rename_i h
    rw [oldest, oldest]
    dsimp only
    cases z.past.getLast? with
    | none => exact h
    | some y => rfl
  · rw [oldest, oldest]
    dsimp only
    rw [List.getLast?_cons]
    rfl

theorem oldest_back : ∀ (n : Nat) (z : Zip), z.past.length ≤ n → (Zip.times Zip.back n z).present.2 = oldest z
  | 0, ⟨p, x, f⟩, h => by
    cases p with
    | nil => rfl
    | cons y p => simp at h
  | n + 1, ⟨p, x, f⟩, h => by
    rw [Zip.times]
    cases p with
    | nil => rw [show (⟨[], x, f⟩ : Zip).back = ⟨[], x, f⟩ from rfl, oldest_back n _ (by simp)]
    | cons y p =>
      rw [show (⟨y :: p, x, f⟩ : Zip).back = ⟨p, y, x :: f⟩ from rfl, oldest_back n _ (by simp only [List.length_cons] at h ⊢; omega)]
      rw [oldest, oldest]
      dsimp only
      rw [List.getLast?_cons]
      rfl

end Yash.Edit
