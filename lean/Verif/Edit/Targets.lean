import Verif.Edit.Safe
/-! # Motions stay in the line -/
set_option autoImplicit false

namespace Yash.Edit
open Spec

theorem nextEnd_false (C : Chars) (hC : Sane C) (k : WordKind) (s : List Char) (i : Nat) (h : i < s.length) :
    ∃ r, nextEnd C k s i false = some r ∧ i ≤ r ∧ r ≤ s.length := by
  have plain : ∀ sep n, ∃ r, nextEndPlain sep s false i (n + 1) i = some r ∧ i ≤ r ∧ r ≤ s.length := by
    intro sep n
    obtain ⟨c, hc⟩ := get_of_lt h
    rw [nextEndPlain, hc]
    simp only [Bool.not_false, Bool.or_true, if_true]
    have h1 := le_skip sep s i
    have h2 := le_skip (fun c => !sep c) s (skip sep s i)
    have h3 := skip_le (fun c => !sep c) s (skip sep s i) (skip_le sep s i (by omega))
    refine ⟨_, rfl, ?_, by omega⟩
    have : i < skip (fun c => !sep c) s (skip sep s i) := by
      cases hs : sep c
      · have e : skip sep s i = i := skip_stay (by rw [isAt_some hc]; exact hs)
        rw [e] at h2 ⊢
        have := skip_step (p := fun c => !sep c) (s := s) (i := i) (by rw [isAt_some hc]; simp [hs])
        have := le_skip (fun c => !sep c) s (i + 1)
        omega
      · have := skip_step (p := sep) (s := s) (i := i) (by rw [isAt_some hc]; exact hs)
        have := le_skip sep s (i + 1)
        omega
    omega
  cases k with
  | viword =>
    simp only [nextEnd]
    rcases nextEndVi_round C hC s false i (i + s.length + 1) i (by omega) with ⟨h1, -⟩ | ⟨e, hie, hel, -, -, heq⟩
    · exact ⟨_, h1, by omega, by omega⟩
    · exact ⟨e, by rw [heq]; simp, hie, by omega⟩
  | bigword => exact plain _ (i + s.length + 1)
  | semiword => exact plain _ (i + s.length + 1)

theorem nextEnd_true (C : Chars) (hC : Sane C) (k : WordKind) (s : List Char) (i : Nat) (h : i < s.length) :
    ∃ r, nextEnd C k s i true = some r ∧ i < r ∧ r ≤ s.length := by
  cases k with
  | viword => obtain ⟨r, h1, h2, h3, -⟩ := nextEndVi_spec C hC s i (i + s.length) h; exact ⟨r, h1, h2, h3⟩
  | bigword => obtain ⟨r, h1, h2, h3, -⟩ := nextEndPlain_spec (separator C .bigword) s i (i + s.length) h; exact ⟨r, h1, h2, h3⟩
  | semiword => obtain ⟨r, h1, h2, h3, -⟩ := nextEndPlain_spec (separator C .semiword) s i (i + s.length) h; exact ⟨r, h1, h2, h3⟩

theorem nextWord_ok (C : Chars) (hC : Sane C) (k : WordKind) (s : List Char) (i : Nat) (h : i < s.length) :
    i < nextWord C k s i ∧ nextWord C k s i ≤ s.length := by
  cases k with
  | viword =>
    simp only [nextWord]
    rcases nextVi_spec C hC s i h with ⟨h1, -⟩ | ⟨h1, ⟨c, a, hc, -⟩, -⟩
    · omega
    · have := get_lt hc; omega
  | bigword =>
    simp only [nextWord]
    rcases nextPlain_spec (separator C .bigword) s i h with ⟨h1, -⟩ | ⟨h1, ⟨c, a, hc, -⟩, -⟩
    · omega
    · have := get_lt hc; omega
  | semiword =>
    simp only [nextWord]
    rcases nextPlain_spec (separator C .semiword) s i h with ⟨h1, -⟩ | ⟨h1, ⟨c, a, hc, -⟩, -⟩
    · omega
    · have := get_lt hc; omega

theorem prevWord_ok (C : Chars) (hC : Sane C) (k : WordKind) (s : List Char) (i : Nat) (h : i ≤ s.length) :
    ∃ r, prevWord C k s i = some r ∧ r ≤ i := by
  cases k with
  | viword => obtain ⟨r, h1, h2, -⟩ := prevVi_spec C hC s i i h; exact ⟨r, h1, h2⟩
  | bigword => obtain ⟨r, h1, h2, -⟩ := prevPlain_spec (separator C .bigword) s _ (fun j c hc => isAt_some hc) i i h; exact ⟨r, h1, h2⟩
  | semiword => obtain ⟨r, h1, h2, -⟩ := prevPlain_spec (separator C .semiword) s _ (fun j c hc => isAt_some hc) i i h; exact ⟨r, h1, h2⟩

theorem prevEmacs_ok (C : Chars) (s : List Char) (i : Nat) (h : i ≤ s.length) :
    ∃ r, prevEmacs C s i = some r ∧ r ≤ i := by
  obtain ⟨r, h1, h2, -⟩ := prevPlain_spec (fun c => !C.alnum c) s (fun i => !isAt C.alnum s i) (fun j c hc => by simp [isAt_some hc]) i i h
  exact ⟨r, h1, h2⟩

theorem nextEmacs_ok (C : Chars) (s : List Char) (i : Nat) (h : i ≤ s.length) : i ≤ nextEmacs C s i ∧ nextEmacs C s i ≤ s.length := by
  simp only [nextEmacs]
  have h1 := le_skip (fun c => !C.alnum c) s i
  have h2 := le_skip C.alnum s (skip (fun c => !C.alnum c) s i)
  exact ⟨by omega, skip_le _ _ _ (skip_le _ _ _ h)⟩

theorem iterate_ok (f : Nat → Option Nat) (stop : Nat → Bool) (P : Nat → Prop) (hf : ∀ i, P i → stop i = false → ∃ j, f i = some j ∧ P j) :
    ∀ n i, P i → ∃ r, iterate f stop n i = some r ∧ P r
  | 0, i, h => ⟨i, rfl, h⟩
  | n + 1, i, h => by
    rw [iterate]
    cases hs : stop i
    · obtain ⟨j, hj, hp⟩ := hf i h hs
      simp only [Bool.false_eq_true, if_false, hj]
      exact iterate_ok f stop P hf n j hp
    · exact ⟨i, by simp, h⟩

/-- The target of a motion is in the line. -/
def InLine (st : St) (t : Target) : Prop :=
  ∃ t', t = some t' ∧ ∀ i inc, t' = some (i, inc) → i ≤ st.buf.length ∧ (inc = true → st.idx ≤ i)

theorem InLine.none {st : St} : InLine st (some none) := ⟨_, rfl, fun _ _ h => by cases h⟩
theorem InLine.mk {st : St} {i : Nat} {inc : Bool} (h : i ≤ st.buf.length) (h' : inc = true → st.idx ≤ i) : InLine st (some (some (i, inc))) :=
  ⟨_, rfl, fun a b hh => by cases hh; exact ⟨h, h'⟩⟩

theorem forwardChar_in (n : Nat) (st : St) (h : st.idx ≤ st.buf.length) : InLine st (forwardChar n st) := by
  rw [forwardChar]; split
  · exact .none
  · exact .mk (by split <;> omega) (fun h => by cases h)

theorem backwardChar_in (n : Nat) (st : St) (h : st.idx ≤ st.buf.length) : InLine st (backwardChar n st) := by
  rw [backwardChar]; split
  · exact .none
  · exact .mk (by split <;> omega) (fun h => by cases h)

theorem forwardWord_in (C : Chars) (hC : Sane C) (k : WordKind) (n : Nat) (st : St) (h : st.idx ≤ st.buf.length) : InLine st (forwardWord C k n st) := by
  rw [forwardWord]; split
  · exact .none
  · have it : ∀ n, ∃ r, iterate (fun i => some (nextWord C k st.buf i)) (fun i => !(decide (i < st.buf.length))) n st.idx = some r ∧
        (st.idx ≤ r ∧ r ≤ st.buf.length) := by
      intro n
      refine iterate_ok _ _ (fun i => st.idx ≤ i ∧ i ≤ st.buf.length) ?_ n _ ⟨by omega, h⟩
      intro i hi hs
      have hl : i < st.buf.length := by simpa using hs
      have := nextWord_ok C hC k st.buf i hl
      exact ⟨_, rfl, by omega, by omega⟩
    dsimp only
    split
    · obtain ⟨r, hr, h1, h2⟩ := it n
      simp only [bind, Option.bind, hr]
      exact .mk h2 (fun h => by cases h)
    · obtain ⟨r, hr, h1, h2⟩ := it (n - 1)
      simp only [bind, Option.bind, hr]
      split
      · rename_i hh
        simp only [Bool.and_eq_true, decide_eq_true_eq] at hh
        obtain ⟨e', he', h3, h4⟩ := nextEnd_false C hC k st.buf r hh.2
        rw [he']
        exact .mk h4 (fun _ => by omega)
      · exact .mk h2 (fun _ => h1)

theorem backwardWord_in (C : Chars) (hC : Sane C) (k : WordKind) (n : Nat) (st : St) (h : st.idx ≤ st.buf.length) : InLine st (backwardWord C k n st) := by
  rw [backwardWord]; split
  · exact .none
  · obtain ⟨r, hr, h1⟩ := iterate_ok (prevWord C k st.buf) (fun i => !(decide (i > 0))) (fun i => i ≤ st.buf.length)
      (fun i hi _ => by obtain ⟨r, hr, h1⟩ := prevWord_ok C hC k st.buf i hi; exact ⟨r, hr, by omega⟩) n st.idx h
    simp only [bind, Option.bind, hr]
    exact .mk h1 (fun h => by cases h)

theorem endOfWord_in (C : Chars) (hC : Sane C) (k : WordKind) (n : Nat) (st : St) (h : st.idx ≤ st.buf.length) : InLine st (endOfWord C k n st) := by
  rw [endOfWord]; split
  · exact .none
  · obtain ⟨r, hr, h1, h2⟩ := iterate_ok (fun i => nextEnd C k st.buf i true) (fun i => !(decide (i < st.buf.length)))
      (fun i => st.idx ≤ i ∧ i ≤ st.buf.length)
      (fun i hi hs => by
        have hl : i < st.buf.length := by simpa using hs
        obtain ⟨r, hr, h1, h2⟩ := nextEnd_true C hC k st.buf i hl
        exact ⟨r, hr, by omega, h2⟩) n st.idx ⟨by omega, h⟩
    simp only [bind, Option.bind, hr]
    exact .mk h2 (fun _ => h1)

theorem emacsForward_in (C : Chars) (n : Nat) (st : St) (h : st.idx ≤ st.buf.length) : InLine st (emacsForward C n st) := by
  obtain ⟨r, hr, h1⟩ := iterate_ok (fun i => some (nextEmacs C st.buf i)) (fun i => !(decide (i < st.buf.length))) (fun i => i ≤ st.buf.length)
    (fun i hi _ => ⟨_, rfl, (nextEmacs_ok C st.buf i hi).2⟩) n st.idx h
  simp only [emacsForward, bind, Option.bind, hr]
  exact .mk h1 (fun h => by cases h)

theorem emacsBackward_in (C : Chars) (n : Nat) (st : St) (h : st.idx ≤ st.buf.length) : InLine st (emacsBackward C n st) := by
  obtain ⟨r, hr, h1⟩ := iterate_ok (prevEmacs C st.buf) (fun i => !(decide (i > 0))) (fun i => i ≤ st.buf.length)
    (fun i hi _ => by obtain ⟨r, hr, h1⟩ := prevEmacs_ok C st.buf i hi; exact ⟨r, hr, by omega⟩) n st.idx h
  simp only [emacsBackward, bind, Option.bind, hr]
  exact .mk h1 (fun h => by cases h)

theorem target_in (C : Chars) (hC : Sane C) (m : Motion) (st : St) (h : st.idx ≤ st.buf.length) : InLine st (target C m st) := by
  simp only [target]
  cases m with
  | forwardChar => dsimp only; split; exact forwardChar_in _ st h; exact backwardChar_in _ st h
  | backwardChar => dsimp only; split; exact backwardChar_in _ st h; exact forwardChar_in _ st h
  | forward k => dsimp only; split; exact forwardWord_in C hC k _ st h; exact backwardWord_in C hC k _ st h
  | endOf k => exact endOfWord_in C hC k _ st h
  | backward k => dsimp only; split; exact backwardWord_in C hC k _ st h; exact forwardWord_in C hC k _ st h
  | forwardEmacs => dsimp only; split; exact emacsForward_in C _ st h; exact emacsBackward_in C _ st h
  | backwardEmacs => dsimp only; split; exact emacsBackward_in C _ st h; exact emacsForward_in C _ st h
  | beginningOfLine => exact .mk (by omega) (fun h => by cases h)
  | endOfLine => exact .mk (by omega) (fun _ => h)
  | goToColumn =>
    dsimp only
    split
    · generalize (if getCount st.arg 0 > 0 then getCount st.arg 0 - 1 else getCount st.arg 0) = i
      exact .mk (by split <;> omega) (fun h => by cases h)
    · exact .mk (by split <;> omega) (fun h => by cases h)
  | firstNonblank => exact .mk (skip_le _ _ _ (by omega)) (fun h => by cases h)

/-- Backspace after backspace. -/
def Again (st : St) : Prop := st.cur.map (·.1) = some (.delete .backwardChar) ∧ st.last.map (·.1) = some (.delete .backwardChar)

/-- The line was recorded, or nothing changed, or backspace was repeated. -/
def Moved (E : Env) (st st' : St) : Prop := Saves E st.idx st st' ∨ Out E none st st' ∧ Again st

theorem Moved.exec {E : Env} {st : St} (h : Inv E st) (hm : Main st) (new : Nat) (inclusive : Bool) (hn : new ≤ st.buf.length)
    (hinc : inclusive = true → st.idx ≤ new) : ∃ st', execMotion E new inclusive st = some st' ∧ Moved E st st' := by
  obtain ⟨st', e, o⟩ := execMotion_ok (E := E) h hm new inclusive hn hinc
  refine ⟨st', e, ?_⟩
  cases hr : repeatedBackspace new st
  · rw [hr] at o; exact Or.inl (Or.inl o)
  · rw [hr] at o
    refine Or.inr ⟨o, ?_⟩
    simp only [repeatedBackspace, Bool.and_eq_true, beq_iff_eq] at hr
    exact ⟨hr.1.2, hr.2⟩

theorem Moved.alert {E : Env} {st : St} (h : Inv E st) : Moved E st (alert st) := Or.inl (.alert h _)

theorem Moved.out {E : Env} {st st' : St} (h : Moved E st st') : ∃ saved, Out E saved st st' := by
  rcases h with h | ⟨h, -⟩
  · exact h.out
  · exact ⟨_, h⟩

/-- A motion command does not fail. -/
theorem doMotion_ok {E : Env} (hE : E.Ok) {st : St} (h : Inv E st) (hm : Main st) (m : Motion) :
    ∃ st', doMotion E m st = some st' ∧ Moved E st st' := by
  obtain ⟨t, ht, hin⟩ := target_in E.chars hE.sane m st h.idx
  rw [doMotion, ht]
  match t, hin with
  | none, _ => exact ⟨_, rfl, .alert h⟩
  | some (i, inc), hin =>
    obtain ⟨h1, h2⟩ := hin i inc rfl
    exact Moved.exec h hm i inc h1 h2

end Yash.Edit
