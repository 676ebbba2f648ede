import Verif.Edit.Undo
/-! # Where motions go -/
set_option autoImplicit false

namespace Yash.Edit
open Spec

theorem iterate_steps (f : Nat → Option Nat) (stop : Nat → Bool) (R : Nat → Nat → Prop) (P : Nat → Prop)
    (hf : ∀ i j, P i → stop i = false → f i = some j → R i j ∧ P j) (hs : ∀ i, P i → stop i = true → R i i) :
    ∀ n i r, P i → iterate f stop n i = some r → Steps R n i r
  | 0, i, r, _, h => by rw [iterate] at h; cases h; rfl
  | n + 1, i, r, hp, h => by
    rw [iterate] at h
    cases hst : stop i
    · rw [hst] at h
      simp only [Bool.false_eq_true, if_false] at h
      split at h
      · cases h
      · rename_i j hj
        obtain ⟨h1, h2⟩ := hf i j hp hst hj
        exact ⟨j, h1, iterate_steps f stop R P hf hs n j r h2 h⟩
    · rw [hst] at h
      simp only [if_true] at h
      cases h
      have hii := hs i hp hst
      have : ∀ n, Steps R n i i := by
        intro n
        induction n with
        | zero => rfl
        | succ n ih => exact ⟨i, hii, ih⟩
      exact this (n + 1)

theorem sort_separator (C : Chars) (k : WordKind) (hk : k ≠ .viword) : sortBy (separator C k) = sortOf C k := by
  funext c
  cases k with
  | bigword => simp only [sortBy, separator, sortOf]; grind
  | semiword => simp only [sortBy, separator, sortOf]; grind
  | viword => exact absurd rfl hk

theorem not_start_end (sort : Char → Option Bool) (s : List Char) (j : Nat) (h : s.length ≤ j) : ¬IsStart sort s j := by
  rintro ⟨c, a, hc, -⟩
  rw [List.getElem?_eq_none h] at hc; cases hc

theorem not_end_end (sort : Char → Option Bool) (s : List Char) (j : Nat) (h : s.length ≤ j) : ¬IsEnd sort s j := by
  rintro ⟨c, a, hc, -⟩
  rw [List.getElem?_eq_none h] at hc; cases hc

theorem nextWord_step (C : Chars) (hC : Sane C) (k : WordKind) (s : List Char) (i : Nat) (h : i < s.length) :
    NextStart (sortOf C k) s i (nextWord C k s i) := by
  by_cases hk : k = .viword
  · subst hk
    rcases nextVi_spec C hC s i h with h1 | h1
    · exact Or.inr h1
    · exact Or.inl h1
  · have he : nextWord C k s i = nextPlain (separator C k) s i := by cases k <;> first | rfl | exact absurd rfl hk
    rw [he, ← sort_separator C k hk]
    rcases nextPlain_spec (separator C k) s i h with h1 | h1
    · exact Or.inr h1
    · exact Or.inl h1

theorem prevPlain_step (sep : Char → Bool) (s : List Char) (sepAt : Nat → Bool) (hs : ∀ (j : Nat) (c : Char), s[j]? = some c → sepAt j = sep c)
    (i n : Nat) (hi : i ≤ s.length) (h1 : ¬IsStart (sortBy sep) s 1) :
    ∃ r, prevPlain sepAt i (n + 2) i = some r ∧ r ≤ i ∧ PrevStart (sortBy sep) s i r := by
  obtain ⟨r, hr, hle, -, h⟩ := prevPlain_spec sep s sepAt hs i n hi
  refine ⟨r, hr, hle, ?_⟩
  rcases h with ⟨rfl, h⟩ | ⟨-, h⟩
  · refine Or.inr ⟨rfl, ?_⟩
    intro j hj hji
    by_cases hj1 : j = 1
    · subst hj1; exact h1
    · exact h j (by omega) hji
  · exact Or.inl h

theorem prevWord_step (C : Chars) (hC : Sane C) (k : WordKind) (s : List Char) (i : Nat) (h : i ≤ s.length)
    (h1 : k ≠ .viword → ¬IsStart (sortOf C k) s 1) : ∃ r, prevWord C k s i = some r ∧ r ≤ i ∧ PrevStart (sortOf C k) s i r := by
  by_cases hk : k = .viword
  · subst hk
    obtain ⟨r, hr, hle, -, h⟩ := prevVi_spec C hC s i i h
    refine ⟨r, hr, hle, ?_⟩
    rcases h with h | h
    · exact Or.inr h
    · exact Or.inl h
  · have he : prevWord C k s i = prevPlain (isAt (separator C k) s) i (i + 2) i := by cases k <;> first | rfl | exact absurd rfl hk
    rw [he]
    have := h1 hk
    rw [← sort_separator C k hk] at this ⊢
    exact prevPlain_step (separator C k) s _ (fun j c hc => isAt_some hc) i i h this

theorem prevEmacs_step (C : Chars) (s : List Char) (i : Nat) (h : i ≤ s.length) (h1 : ¬IsStart (sortEmacs C) s 1) :
    ∃ r, prevEmacs C s i = some r ∧ r ≤ i ∧ PrevStart (sortEmacs C) s i r := by
  have he : sortBy (fun c => !C.alnum c) = sortEmacs C := by
    funext c; simp only [sortBy, sortEmacs]; grind
  rw [← he] at h1 ⊢
  exact prevPlain_step (fun c => !C.alnum c) s _ (fun j c hc => by rw [isAt_some hc]) i i h h1

theorem nextEnd_step (C : Chars) (hC : Sane C) (k : WordKind) (s : List Char) (i r : Nat) (h : i < s.length) (hr : nextEnd C k s i true = some r) :
    NextEnd (sortOf C k) s i r ∧ r ≤ s.length := by
  by_cases hk : k = .viword
  · subst hk
    obtain ⟨r', hr', -, hle, h'⟩ := nextEndVi_spec C hC s i (i + s.length) h
    have he : nextEnd C .viword s i true = some r' := hr'
    rw [hr] at he; cases he
    refine ⟨?_, hle⟩
    rcases h' with h' | h'
    · exact Or.inr ⟨h'.1, Or.inl h'.2⟩
    · exact Or.inl h'
  · obtain ⟨r', hr', -, hle, h'⟩ := nextEndPlain_spec (separator C k) s i (i + s.length) h
    have he : nextEnd C k s i true = some r' := by cases k <;> first | exact hr' | exact absurd rfl hk
    rw [hr] at he; cases he
    rw [← sort_separator C k hk]
    refine ⟨?_, hle⟩
    rcases h' with h' | h'
    · refine Or.inr ⟨h'.1, ?_⟩
      have h2 := h'.2
      split at h2 <;> omega
    · exact Or.inl h'

theorem nextStart_end (sort : Char → Option Bool) (s : List Char) (i : Nat) (h : s.length ≤ i + 1) : NextStart sort s i s.length :=
  Or.inr ⟨rfl, fun j hj => not_start_end sort s j (by omega)⟩

theorem nextEnd_end (sort : Char → Option Bool) (s : List Char) (i : Nat) (h : s.length ≤ i + 1) : NextEnd sort s i s.length :=
  Or.inr ⟨fun j hj => not_end_end sort s j (by omega), Or.inl rfl⟩

theorem steps_end {R : Nat → Nat → Prop} {e i : Nat} (h : R i e) (he : R e e) : ∀ n, Steps R (n + 1) i e := by
  have : ∀ n, Steps R n e e := by
    intro n
    induction n with
    | zero => rfl
    | succ n ih => exact ⟨e, he, ih⟩
  intro n
  exact ⟨e, h, this n⟩

theorem steps_stay {R : Nat → Nat → Prop} {e : Nat} (he : R e e) : ∀ n, Steps R n e e
  | 0 => rfl
  | n + 1 => ⟨e, he, steps_stay he n⟩

/-- Where the motion command goes; `none` is an alert. -/
def Lands (st : St) (G : Nat → Prop) (inc : Bool) (t : Option (Nat × Bool)) : Prop :=
  match t with
  | some (r, b) => G r ∧ b = inc ∧ r ≤ st.buf.length
  | none => G st.idx ∨ st.mode = .viCommand ∧ st.arg.motion = .move ∧ st.idx + 1 = st.buf.length ∧ G st.buf.length

theorem Lands.imp {st : St} {G G' : Nat → Prop} {inc : Bool} {t : Option (Nat × Bool)} (h : Lands st G inc t) (hg : ∀ r, G r → G' r) : Lands st G' inc t := by
  cases t with
  | none =>
    rcases h with h | ⟨h1, h2, h3, h4⟩
    · exact Or.inl (hg _ h)
    · exact Or.inr ⟨h1, h2, h3, hg _ h4⟩
  | some x => exact ⟨hg _ h.1, h.2⟩

theorem alert_last {st : St} (h : st.idx ≤ st.buf.length) (ha : alertIfLast st = true) :
    st.idx = st.buf.length ∨ st.mode = .viCommand ∧ st.arg.motion = .move ∧ st.idx + 1 = st.buf.length := by
  rw [alertIfLast] at ha
  split at ha
  · rename_i hv
    split at ha
    · cases ha
    · rename_i hm
      simp only [Bool.not_eq_true', Bool.and_eq_false_iff, decide_eq_false_iff_not] at ha
      by_cases he : st.idx = st.buf.length
      · exact Or.inl he
      · exact Or.inr ⟨hv, by simpa using hm, by omega⟩
  · simp only [Bool.not_eq_true', decide_eq_false_iff_not] at ha
    exact Or.inl (by omega)

theorem forwardChar_goes (n : Nat) (st : St) (h : st.idx ≤ st.buf.length) :
    ∃ t, forwardChar n st = some t ∧ Lands st (fun r => (r : Int) = max 0 (min (st.buf.length : Int) (st.idx + n))) false t := by
  rw [forwardChar]
  split
  · rename_i ha
    refine ⟨_, rfl, ?_⟩
    rcases alert_last h ha with he | ⟨h1, h2, h3⟩
    · exact Or.inl (by omega)
    · by_cases hn : n = 0
      · exact Or.inl (by omega)
      · exact Or.inr ⟨h1, h2, h3, by omega⟩
  · refine ⟨_, rfl, ?_, rfl, ?_⟩
    · split <;> omega
    · split <;> omega

theorem backwardChar_goes (n : Nat) (st : St) (h : st.idx ≤ st.buf.length) :
    ∃ t, backwardChar n st = some t ∧ Lands st (fun r => (r : Int) = max 0 (min (st.buf.length : Int) (st.idx - n))) false t := by
  rw [backwardChar]
  split
  · exact ⟨_, rfl, Or.inl (by omega)⟩
  · refine ⟨_, rfl, ?_, rfl, ?_⟩
    · split <;> omega
    · split <;> omega

theorem forwardWord_goes (C : Chars) (hC : Sane C) (k : WordKind) (n : Nat) (st : St) (h : st.idx ≤ st.buf.length) (hcw : cwTreatment C st = false) :
    ∃ t, forwardWord C k n st = some t ∧ Lands st (Steps (NextStart (sortOf C k) st.buf) n st.idx) false t := by
  rw [forwardWord]
  split
  · rename_i ha
    refine ⟨_, rfl, ?_⟩
    rcases alert_last h ha with he | ⟨h1, h2, h3⟩
    · refine Or.inl (steps_stay ?_ n)
      have := nextStart_end (sortOf C k) st.buf st.idx (by omega)
      rw [← he] at this; exact this
    · cases n with
      | zero => exact Or.inl rfl
      | succ n => exact Or.inr ⟨h1, h2, h3, steps_end (nextStart_end _ _ _ (by omega)) (nextStart_end _ _ _ (by omega)) n⟩
  · rw [hcw]
    simp only [Bool.not_false, if_true]
    obtain ⟨r, hr, hle⟩ := iterate_ok (fun i => some (nextWord C k st.buf i)) (fun i => !decide (i < st.buf.length)) (fun i => i ≤ st.buf.length)
      (by intro i _ hs
          simp only [Bool.not_eq_false', decide_eq_true_eq] at hs
          exact ⟨_, rfl, (nextWord_ok C hC k st.buf i hs).2⟩) n st.idx h
    rw [hr]
    refine ⟨_, rfl, ?_, rfl, hle⟩
    refine iterate_steps _ _ _ (fun i => i ≤ st.buf.length) ?_ ?_ n _ _ h hr
    · intro i j _ hs hj
      simp only [Bool.not_eq_false', decide_eq_true_eq] at hs
      cases hj
      exact ⟨nextWord_step C hC k st.buf i hs, (nextWord_ok C hC k st.buf i hs).2⟩
    · intro i hp hs
      simp only [Bool.not_eq_true', decide_eq_false_iff_not] at hs
      have he : i = st.buf.length := by omega
      have := nextStart_end (sortOf C k) st.buf i (by omega)
      rw [← he] at this; exact this

theorem prev_zero (sort : Char → Option Bool) (s : List Char) : PrevStart sort s 0 0 := Or.inr ⟨rfl, fun j h1 h2 => by omega⟩

theorem backwardWord_goes (C : Chars) (hC : Sane C) (k : WordKind) (n : Nat) (st : St) (h : st.idx ≤ st.buf.length)
    (h1 : k ≠ .viword → ¬IsStart (sortOf C k) st.buf 1) :
    ∃ t, backwardWord C k n st = some t ∧ Lands st (Steps (PrevStart (sortOf C k) st.buf) n st.idx) false t := by
  rw [backwardWord]
  split
  · rename_i hz
    refine ⟨_, rfl, Or.inl ?_⟩
    rw [hz]
    exact steps_stay (prev_zero _ _) n
  · obtain ⟨r, hr, hle⟩ := iterate_ok (prevWord C k st.buf) (fun i => !decide (i > 0)) (fun i => i ≤ st.buf.length)
      (by intro i hp hs
          obtain ⟨r, hr, hle, -⟩ := prevWord_step C hC k st.buf i hp h1
          exact ⟨r, hr, by omega⟩) n st.idx h
    rw [hr]
    refine ⟨_, rfl, ?_, rfl, hle⟩
    refine iterate_steps _ _ _ (fun i => i ≤ st.buf.length) ?_ ?_ n _ _ h hr
    · intro i j hp hs hj
      obtain ⟨r, hr, hle, hst⟩ := prevWord_step C hC k st.buf i hp h1
      rw [hj] at hr; cases hr
      exact ⟨hst, by omega⟩
    · intro i hp hs
      simp only [Bool.not_eq_true', decide_eq_false_iff_not] at hs
      rw [show i = 0 by omega]
      exact prev_zero _ _

theorem endOfWord_goes (C : Chars) (hC : Sane C) (k : WordKind) (n : Nat) (st : St) (h : st.idx ≤ st.buf.length) :
    ∃ t, endOfWord C k n st = some t ∧ Lands st (Steps (NextEnd (sortOf C k) st.buf) n st.idx) true t := by
  rw [endOfWord]
  split
  · rename_i ha
    refine ⟨_, rfl, ?_⟩
    rcases alert_last h ha with he | ⟨h1, h2, h3⟩
    · refine Or.inl (steps_stay ?_ n)
      have := nextEnd_end (sortOf C k) st.buf st.idx (by omega)
      rw [← he] at this; exact this
    · cases n with
      | zero => exact Or.inl rfl
      | succ n => exact Or.inr ⟨h1, h2, h3, steps_end (nextEnd_end _ _ _ (by omega)) (nextEnd_end _ _ _ (by omega)) n⟩
  · obtain ⟨r, hr, hle⟩ := iterate_ok (fun i => nextEnd C k st.buf i true) (fun i => !decide (i < st.buf.length)) (fun i => i ≤ st.buf.length)
      (by intro i _ hs
          simp only [Bool.not_eq_false', decide_eq_true_eq] at hs
          obtain ⟨r, hr, -, hle⟩ := nextEnd_true C hC k st.buf i hs
          exact ⟨r, hr, hle⟩) n st.idx h
    rw [hr]
    refine ⟨_, rfl, ?_, rfl, hle⟩
    refine iterate_steps _ _ _ (fun i => i ≤ st.buf.length) ?_ ?_ n _ _ h hr
    · intro i j _ hs hj
      simp only [Bool.not_eq_false', decide_eq_true_eq] at hs
      exact nextEnd_step C hC k st.buf i j hs hj
    · intro i hp hs
      simp only [Bool.not_eq_true', decide_eq_false_iff_not] at hs
      have he : i = st.buf.length := by omega
      have := nextEnd_end (sortOf C k) st.buf i (by omega)
      rw [← he] at this; exact this

theorem emacsForward_goes (C : Chars) (n : Nat) (st : St) (h : st.idx ≤ st.buf.length) :
    ∃ t, emacsForward C n st = some t ∧ Lands st (Steps (AfterEnd (sortEmacs C) st.buf) n st.idx) false t := by
  rw [emacsForward]
  obtain ⟨r, hr, hle⟩ := iterate_ok (fun i => some (nextEmacs C st.buf i)) (fun i => !decide (i < st.buf.length)) (fun i => i ≤ st.buf.length)
    (by intro i hp hs
        exact ⟨_, rfl, (nextEmacs_ok C st.buf i hp).2⟩) n st.idx h
  rw [hr]
  refine ⟨_, rfl, ?_, rfl, hle⟩
  refine iterate_steps _ _ _ (fun i => i ≤ st.buf.length) ?_ ?_ n _ _ h hr
  · intro i j hp hs hj
    simp only [Bool.not_eq_false', decide_eq_true_eq] at hs
    cases hj
    refine ⟨?_, (nextEmacs_ok C st.buf i hp).2⟩
    rcases nextEmacs_spec C st.buf i hs with h1 | h1
    · exact Or.inr h1
    · exact Or.inl h1
  · intro i hp hs
    simp only [Bool.not_eq_true', decide_eq_false_iff_not] at hs
    exact Or.inr ⟨by omega, fun j hj => not_end_end _ _ j (by omega)⟩

theorem emacsBackward_goes (C : Chars) (n : Nat) (st : St) (h : st.idx ≤ st.buf.length) (h1 : ¬IsStart (sortEmacs C) st.buf 1) :
    ∃ t, emacsBackward C n st = some t ∧ Lands st (Steps (PrevStart (sortEmacs C) st.buf) n st.idx) false t := by
  rw [emacsBackward]
  obtain ⟨r, hr, hle⟩ := iterate_ok (prevEmacs C st.buf) (fun i => !decide (i > 0)) (fun i => i ≤ st.buf.length)
    (by intro i hp hs
        obtain ⟨r, hr, hle, -⟩ := prevEmacs_step C st.buf i hp h1
        exact ⟨r, hr, by omega⟩) n st.idx h
  rw [hr]
  refine ⟨_, rfl, ?_, rfl, hle⟩
  refine iterate_steps _ _ _ (fun i => i ≤ st.buf.length) ?_ ?_ n _ _ h hr
  · intro i j hp hs hj
    obtain ⟨r, hr, hle, hst⟩ := prevEmacs_step C st.buf i hp h1
    rw [hj] at hr; cases hr
    exact ⟨hst, by omega⟩
  · intro i hp hs
    simp only [Bool.not_eq_true', decide_eq_false_iff_not] at hs
    rw [show i = 0 by omega]
    exact prev_zero _ _

theorem missed_word {C : Chars} {m : Motion} {s : List Char} {k : WordKind} (hm : m = .forward k ∨ m = .backward k) (h : ¬Missed C m s) :
    k ≠ .viword → ¬IsStart (sortOf C k) s 1 := by
  intro hk
  rcases hm with rfl | rfl <;> cases k <;> first | exact h | exact absurd rfl hk

theorem firstNonblank_goes (C : Chars) (s : List Char) : skip C.blank s 0 ≤ s.length ∧ (∀ (j : Nat) c, s[j]? = some c → j < skip C.blank s 0 → C.blank c = true) ∧
    ∀ c, s[skip C.blank s 0]? = some c → C.blank c = false := by
  refine ⟨skip_le _ _ _ (by omega), ?_, ?_⟩
  · intro j c hc hj
    obtain ⟨c', hc', hb⟩ := skip_in C.blank s 0 j (by omega) hj
    rw [hc] at hc'; cases hc'
    exact hb
  · exact fun c hc => skip_stop C.blank s 0 c hc

/-- Motion commands go where they should. -/
theorem target_goes (C : Chars) (hC : Sane C) (m : Motion) (st : St) (h : st.idx ≤ st.buf.length)
    (hi : cwTreatment C st = false ∨ ∀ k, m ≠ .forward k ∧ m ≠ .backward k) (hq : ¬Missed C m st.buf) :
    ∃ t, target C m st = some t ∧ Lands st (Goes C m (getCount st.arg 1) (getCount st.arg 0) st.buf st.idx) (inclusive m) t := by
  cases m with
  | forwardChar =>
    simp only [target, inclusive]
    split
    · rename_i hn
      obtain ⟨t, ht, hl⟩ := forwardChar_goes (getCount st.arg 1).toNat st h
      refine ⟨t, ht, ?_⟩
      rw [show ((getCount st.arg 1).toNat : Int) = getCount st.arg 1 by omega] at hl
      exact hl
    · rename_i hn
      obtain ⟨t, ht, hl⟩ := backwardChar_goes (-getCount st.arg 1).toNat st h
      refine ⟨t, ht, ?_⟩
      rw [show ((-getCount st.arg 1).toNat : Int) = -getCount st.arg 1 by omega, Int.sub_neg] at hl
      exact hl
  | backwardChar =>
    simp only [target, inclusive]
    split
    · rename_i hn
      obtain ⟨t, ht, hl⟩ := backwardChar_goes (getCount st.arg 1).toNat st h
      refine ⟨t, ht, ?_⟩
      rw [show ((getCount st.arg 1).toNat : Int) = getCount st.arg 1 by omega] at hl
      exact hl
    · rename_i hn
      obtain ⟨t, ht, hl⟩ := forwardChar_goes (-getCount st.arg 1).toNat st h
      refine ⟨t, ht, ?_⟩
      rw [show ((-getCount st.arg 1).toNat : Int) = -getCount st.arg 1 by omega, ← Int.sub_eq_add_neg] at hl
      exact hl
  | forward k =>
    simp only [target, inclusive]
    split
    · rename_i hn
      obtain ⟨t, ht, hl⟩ := forwardWord_goes C hC k (getCount st.arg 1).toNat st h (hi.resolve_right fun hc => (hc k).1 rfl)
      refine ⟨t, ht, ?_⟩
      exact hl.imp fun r hr => by simp only [Goes]; rw [if_pos (show 0 ≤ getCount st.arg 1 from hn)]; exact hr
    · rename_i hn
      obtain ⟨t, ht, hl⟩ := backwardWord_goes C hC k (-getCount st.arg 1).toNat st h (missed_word (Or.inl rfl) hq)
      refine ⟨t, ht, ?_⟩
      exact hl.imp fun r hr => by simp only [Goes]; rw [if_neg (show ¬0 ≤ getCount st.arg 1 from hn)]; exact hr
  | backward k =>
    simp only [target, inclusive]
    split
    · rename_i hn
      obtain ⟨t, ht, hl⟩ := backwardWord_goes C hC k (getCount st.arg 1).toNat st h (missed_word (Or.inr rfl) hq)
      refine ⟨t, ht, ?_⟩
      exact hl.imp fun r hr => by simp only [Goes]; rw [if_pos (show 0 ≤ getCount st.arg 1 from hn)]; exact hr
    · rename_i hn
      obtain ⟨t, ht, hl⟩ := forwardWord_goes C hC k (-getCount st.arg 1).toNat st h (hi.resolve_right fun hc => (hc k).2 rfl)
      refine ⟨t, ht, ?_⟩
      exact hl.imp fun r hr => by simp only [Goes]; rw [if_neg (show ¬0 ≤ getCount st.arg 1 from hn)]; exact hr
  | endOf k => exact endOfWord_goes C hC k (getCount st.arg 1).toNat st h
  | forwardEmacs =>
    simp only [target, inclusive]
    split
    · rename_i hn
      obtain ⟨t, ht, hl⟩ := emacsForward_goes C (getCount st.arg 1).toNat st h
      refine ⟨t, ht, ?_⟩
      exact hl.imp fun r hr => by simp only [Goes]; rw [if_pos (show 0 ≤ getCount st.arg 1 from hn)]; exact hr
    · rename_i hn
      obtain ⟨t, ht, hl⟩ := emacsBackward_goes C (-getCount st.arg 1).toNat st h hq
      refine ⟨t, ht, ?_⟩
      exact hl.imp fun r hr => by simp only [Goes]; rw [if_neg (show ¬0 ≤ getCount st.arg 1 from hn)]; exact hr
  | backwardEmacs =>
    simp only [target, inclusive]
    split
    · rename_i hn
      obtain ⟨t, ht, hl⟩ := emacsBackward_goes C (getCount st.arg 1).toNat st h hq
      refine ⟨t, ht, ?_⟩
      exact hl.imp fun r hr => by simp only [Goes]; rw [if_pos (show 0 ≤ getCount st.arg 1 from hn)]; exact hr
    · rename_i hn
      obtain ⟨t, ht, hl⟩ := emacsForward_goes C (-getCount st.arg 1).toNat st h
      refine ⟨t, ht, ?_⟩
      exact hl.imp fun r hr => by simp only [Goes]; rw [if_neg (show ¬0 ≤ getCount st.arg 1 from hn)]; exact hr
  | beginningOfLine => exact ⟨_, rfl, rfl, rfl, by omega⟩
  | endOfLine => exact ⟨_, rfl, rfl, rfl, by omega⟩
  | goToColumn =>
    simp only [target, inclusive]
    split
    · refine ⟨_, rfl, ?_, rfl, ?_⟩
      · simp only [Goes]; repeat' split
        all_goals omega
      · repeat' split
        all_goals omega
    · refine ⟨_, rfl, ?_, rfl, ?_⟩
      · simp only [Goes]; repeat' split
        all_goals omega
      · repeat' split
        all_goals omega
  | firstNonblank =>
    refine ⟨_, rfl, firstNonblank_goes C st.buf, rfl, skip_le _ _ _ (by omega)⟩

end Yash.Edit
