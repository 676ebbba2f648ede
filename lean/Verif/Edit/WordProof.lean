import Verif.Edit.WordSpec
/-! # The word motions find what they should -/
set_option autoImplicit false

namespace Yash.Edit
open Spec

theorem skip_le (p : Char → Bool) (s : List Char) (i : Nat) (h : i ≤ s.length) : skip p s i ≤ s.length := by
  have := (List.takeWhile_sublist p (l := s.drop i)).length_le
  simp only [skip, List.length_drop] at *; omega

theorem le_skip (p : Char → Bool) (s : List Char) (i : Nat) : i ≤ skip p s i := by simp [skip]

theorem takeWhile_get (p : Char → Bool) : ∀ (l : List Char) (n : Nat), n < (l.takeWhile p).length → ∃ c, l[n]? = some c ∧ p c = true
  | [], n, h => by simp at h
  | c :: l, n, h => by
    rw [List.takeWhile_cons] at h
    split at h
    · cases n with
      | zero => exact ⟨c, by simp, by assumption⟩
      | succ n => simpa using takeWhile_get p l n (by simpa using h)
    · simp at h

theorem takeWhile_stop (p : Char → Bool) : ∀ (l : List Char) (c : Char), l[(l.takeWhile p).length]? = some c → p c = false
  | [], c, h => by simp at h
  | d :: l, c, h => by
    rw [List.takeWhile_cons] at h
    split at h
    · exact takeWhile_stop p l c (by simpa using h)
    · simp at h; grind

theorem skip_in (p : Char → Bool) (s : List Char) (i j : Nat) (h : i ≤ j) (h' : j < skip p s i) :
    ∃ c, s[j]? = some c ∧ p c = true := by
  obtain ⟨c, hc, hp⟩ := takeWhile_get p (s.drop i) (j - i) (by simp only [skip] at h'; omega)
  refine ⟨c, ?_, hp⟩
  rw [List.getElem?_drop] at hc
  rwa [show i + (j - i) = j by omega] at hc

theorem skip_stop (p : Char → Bool) (s : List Char) (i : Nat) (c : Char) (h : s[skip p s i]? = some c) : p c = false := by
  apply takeWhile_stop p (s.drop i) c
  rw [List.getElem?_drop]; exact h

theorem get_lt {s : List Char} {i : Nat} {c : Char} (h : s[i]? = some c) : i < s.length := by
  rw [List.getElem?_eq_some_iff] at h; exact h.1

theorem get_of_lt {s : List Char} {i : Nat} (h : i < s.length) : ∃ c, s[i]? = some c := ⟨s[i], by simp [h]⟩

/-- The sort that corresponds to a separator. -/
def sortBy (sep : Char → Bool) (c : Char) : Option Bool := if sep c then none else some true

theorem nextPlain_le (sep : Char → Bool) (s : List Char) (i : Nat) (h : i ≤ s.length) : nextPlain sep s i ≤ s.length :=
  skip_le _ _ _ (skip_le _ _ _ h)

theorem nextPlain_spec (sep : Char → Bool) (s : List Char) (i : Nat) (h : i < s.length) :
    (nextPlain sep s i = s.length ∧ ∀ j, i < j → ¬IsStart (sortBy sep) s j) ∨ FirstAfter (IsStart (sortBy sep) s) i (nextPlain sep s i) := by
  have hle := nextPlain_le sep s i (by omega)
  simp only [nextPlain] at *
  generalize ha : skip (fun c => !sep c) s i = a at *
  generalize hb : skip sep s a = b at *
  have h1 := le_skip (fun c => !sep c) s i
  have h2 := le_skip sep s a
  have h3 := skip_in (fun c => !sep c) s i
  have h4 := skip_in sep s a
  have h5 := skip_stop (fun c => !sep c) s i
  have h6 := skip_stop sep s a
  rw [ha] at h1 h3 h5; rw [hb] at h2 h4 h6
  have key : ∀ j, i < j → j < b → ¬IsStart (sortBy sep) s j := by
    rintro j hj hj' ⟨c, x, hc, hx, hp⟩
    by_cases hja : j < a
    · obtain ⟨d, hd, hd'⟩ := h3 (j - 1) (by omega) (by omega)
      obtain ⟨e, he, he'⟩ := h3 j (by omega) (by omega)
      have := hp (j - 1) d (by omega) hd
      simp only [sortBy] at *; grind
    · obtain ⟨d, hd, hd'⟩ := h4 j (by omega) (by omega)
      simp only [sortBy] at *; grind
  by_cases hbl : b = s.length
  · refine Or.inl ⟨hbl, fun j hj => ?_⟩
    by_cases hjb : j < b
    · exact key j hj hjb
    · rintro ⟨c, x, hc, -⟩; have := get_lt hc; omega
  · right
    obtain ⟨c, hc⟩ := get_of_lt (show b < s.length by omega)
    have hcs := h6 c hc
    have hab : a < b := by
      rcases Nat.lt_or_ge a b with h | h
      · exact h
      · have := h5 c (by rw [show a = b by omega]; exact hc); grind
    have hi : i < b := by omega
    refine ⟨hi, ⟨c, true, hc, by simp [sortBy, hcs], ?_⟩, key⟩
    intro k d hk hd
    obtain ⟨e, he, he'⟩ := h4 k (by omega) (by omega)
    simp only [sortBy]; grind

/-- The emacsword motion goes behind the first end of a word at or after `i`. -/
theorem nextEmacs_spec (C : Chars) (s : List Char) (i : Nat) (h : i < s.length) :
    (nextEmacs C s i = s.length ∧ ∀ j, i ≤ j → ¬IsEnd (sortEmacs C) s j) ∨
      ∃ e, nextEmacs C s i = e + 1 ∧ i ≤ e ∧ IsEnd (sortEmacs C) s e ∧ ∀ j, i ≤ j → j < e → ¬IsEnd (sortEmacs C) s j := by
  have hle : nextEmacs C s i ≤ s.length := skip_le _ _ _ (skip_le _ _ _ (by omega))
  simp only [nextEmacs] at *
  generalize ha : skip (fun c => !C.alnum c) s i = a at *
  generalize hb : skip C.alnum s a = b at *
  have h1 := le_skip (fun c => !C.alnum c) s i
  have h2 := le_skip C.alnum s a
  have h3 := skip_in (fun c => !C.alnum c) s i
  have h4 := skip_in C.alnum s a
  have h5 := skip_stop (fun c => !C.alnum c) s i
  have h6 := skip_stop C.alnum s a
  rw [ha] at h1 h3 h5; rw [hb] at h2 h4 h6
  have key : ∀ j, i ≤ j → j + 1 < b → ¬IsEnd (sortEmacs C) s j := by
    rintro j hj hj' ⟨c, x, hc, hx, hp⟩
    by_cases hja : j < a
    · obtain ⟨e, he, he'⟩ := h3 j (by omega) (by omega)
      simp only [sortEmacs] at *; grind
    · obtain ⟨d, hd, hd'⟩ := h4 j (by omega) (by omega)
      obtain ⟨e, he, he'⟩ := h4 (j + 1) (by omega) (by omega)
      have := hp e he
      simp only [sortEmacs] at *; grind
  by_cases hab : a = b
  · left
    have hal : a = s.length := by
      apply Classical.byContradiction; intro hne
      obtain ⟨c, hc⟩ := get_of_lt (show a < s.length by omega)
      have := h5 c hc; have := h6 c (hab ▸ hc); grind
    refine ⟨by omega, fun j hj => ?_⟩
    by_cases hjb : j < b
    · rintro ⟨c, x, hc, hx, hp⟩
      obtain ⟨e, he, he'⟩ := h3 j (by omega) (by omega)
      simp only [sortEmacs] at *; grind
    · rintro ⟨c, x, hc, -⟩; have := get_lt hc; omega
  · right
    refine ⟨b - 1, by omega, by omega, ?_, fun j hj hj' => key j hj (by omega)⟩
    obtain ⟨e, he, he'⟩ := h4 (b - 1) (by omega) (by omega)
    refine ⟨e, true, he, by simp [sortEmacs, he'], fun d hd => ?_⟩
    have := h6 d (by rwa [show b - 1 + 1 = b by omega] at hd)
    simp [sortEmacs, this]

theorem isAt_some {p : Char → Bool} {s : List Char} {i : Nat} {c : Char} (h : s[i]? = some c) : isAt p s i = p c := by simp [isAt, h]
theorem isAt_none {p : Char → Bool} {s : List Char} {i : Nat} (h : s[i]? = none) : isAt p s i = false := by simp [isAt, h]
theorem isAt_true {p : Char → Bool} {s : List Char} {i : Nat} (h : isAt p s i = true) : ∃ c, s[i]? = some c ∧ p c = true := by
  simp only [isAt] at h; split at h
  · exact ⟨_, by assumption, h⟩
  · cases h

theorem skip_step {p : Char → Bool} {s : List Char} {i : Nat} (h : isAt p s i = true) : skip p s i = skip p s (i + 1) := by
  obtain ⟨c, hc, hp⟩ := isAt_true h
  have hl := get_lt hc
  have hs : s[i] = c := by simpa [hl] using hc
  simp only [skip, List.drop_eq_getElem_cons hl, List.takeWhile_cons, hs, hp, if_true, List.length_cons]
  omega

theorem skip_stay {p : Char → Bool} {s : List Char} {i : Nat} (h : isAt p s i = false) : skip p s i = i := by
  have h1 := le_skip p s i
  rcases Nat.lt_or_ge i (skip p s i) with h' | h'
  · obtain ⟨c, hc, hp⟩ := skip_in p s i i (by omega) h'
    rw [isAt_some hc] at h; grind
  · omega

theorem skip_maybe (p : Char → Bool) (s : List Char) (j : Nat) : (if (!isAt p s j) = true then j else skip p s (j + 1)) = skip p s j := by
  cases h : isAt p s j
  · simp [skip_stay h]
  · simp [skip_step h]

theorem nextVi_eq (C : Chars) (s : List Char) (i : Nat) :
    nextVi C s i = if isAt (viAlnum C) s i then skip C.blank s (skip (viAlnum C) s i)
      else if isAt C.blank s i then skip C.blank s i
      else skip C.blank s (skip (fun c => !C.blank c && !viAlnum C c) s i) := by
  simp only [nextVi]
  cases h1 : isAt (viAlnum C) s i
  · cases h2 : isAt C.blank s i
    · cases h3 : s[i]? with
      | none =>
        have : skip (fun c => !C.blank c && !viAlnum C c) s i = i := skip_stay (isAt_none h3)
        simp [this, skip_stay h2]
      | some c =>
        have : isAt (fun c => !C.blank c && !viAlnum C c) s i = true := by
          rw [isAt_some h3] at *; simp [h1, h2]
        simp only [skip_step this, Bool.false_eq_true, if_false]
        generalize skip (fun c => !C.blank c && !viAlnum C c) s (i + 1) = j
        rw [← skip_maybe C.blank s j]
        cases isAt C.blank s j <;> rfl
    · simp [skip_step h2]
  · simp only [if_true, skip_step h1, skip_maybe]

/-- Skipping the rest of a word and what separates it from the next one. -/
theorem next_word (sort : Char → Option Bool) (p q : Char → Bool) (b : Bool) (s : List Char) (i : Nat) (hi : i < s.length)
    (hp : ∀ c, p c = true ↔ sort c = some b) (hq : ∀ c, q c = true ↔ sort c = none) (h : isAt p s i = true ∨ isAt q s i = true) :
    (skip q s (skip p s i) = s.length ∧ ∀ j, i < j → ¬IsStart sort s j) ∨ FirstAfter (IsStart sort s) i (skip q s (skip p s i)) := by
  have hle : skip q s (skip p s i) ≤ s.length := skip_le _ _ _ (skip_le _ _ _ (by omega))
  generalize ha : skip p s i = a at *
  generalize hb : skip q s a = b' at *
  have h1 := le_skip p s i
  have h2 := le_skip q s a
  have h3 := skip_in p s i
  have h4 := skip_in q s a
  have h5 := skip_stop p s i
  have h6 := skip_stop q s a
  rw [ha] at h1 h3 h5; rw [hb] at h2 h4 h6
  have hii : i < b' := by
    rcases h with h | h
    · have := skip_step h; have := le_skip p s (i + 1); omega
    · obtain ⟨c, hc, hcq⟩ := isAt_true h
      rcases Nat.lt_or_ge i a with hl | hl
      · omega
      · have hai : a = i := by omega
        have := skip_step (p := q) (s := s) (i := a) (by rw [hai]; exact h)
        have := le_skip q s (a + 1); omega
  have key : ∀ j, i < j → j < b' → ¬IsStart sort s j := by
    rintro j hj hj' ⟨c, x, hc, hx, hpp⟩
    by_cases hja : j < a
    · obtain ⟨d, hd, hd'⟩ := h3 (j - 1) (by omega) (by omega)
      obtain ⟨e, he, he'⟩ := h3 j (by omega) (by omega)
      have := hpp (j - 1) d (by omega) hd
      grind
    · obtain ⟨d, hd, hd'⟩ := h4 j (by omega) (by omega)
      grind
  by_cases hbl : b' = s.length
  · refine Or.inl ⟨hbl, fun j hj => ?_⟩
    by_cases hjb : j < b'
    · exact key j hj hjb
    · rintro ⟨c, x, hc, -⟩; have := get_lt hc; omega
  · right
    obtain ⟨c, hc⟩ := get_of_lt (show b' < s.length by omega)
    have hcs := h6 c hc
    cases hsc : sort c with
    | none => have := (hq c).2 hsc; grind
    | some x =>
      refine ⟨hii, ⟨c, x, hc, hsc, ?_⟩, key⟩
      intro k d hk hd
      by_cases hka : k < a
      · obtain ⟨e, he, he'⟩ := h3 k (by omega) hka
        have hab : a = b' := by omega
        have hpc := h5 c (by rw [hab]; exact hc)
        grind
      · obtain ⟨e, he, he'⟩ := h4 k (by omega) (by omega)
        grind

theorem nextVi_spec (C : Chars) (hC : Sane C) (s : List Char) (i : Nat) (h : i < s.length) :
    (nextVi C s i = s.length ∧ ∀ j, i < j → ¬IsStart (sortOf C .viword) s j) ∨
      FirstAfter (IsStart (sortOf C .viword) s) i (nextVi C s i) := by
  have hq : ∀ c, C.blank c = true ↔ sortOf C .viword c = none := by intro c; simp only [sortOf]; grind
  have hp : ∀ c, viAlnum C c = true ↔ sortOf C .viword c = some true := by
    intro c; have := hC c; simp only [sortOf, viAlnum]; grind
  have hp' : ∀ c, (!C.blank c && !viAlnum C c) = true ↔ sortOf C .viword c = some false := by
    intro c; have := hC c; simp only [sortOf, viAlnum]; grind
  rw [nextVi_eq]
  obtain ⟨c, hc⟩ := get_of_lt h
  cases h1 : isAt (viAlnum C) s i
  · cases h2 : isAt C.blank s i
    · simpa using next_word _ _ _ false s i h hp' hq (Or.inl (by rw [isAt_some hc] at *; simp [h1, h2]))
    · have := next_word _ _ _ true s i h hp hq (Or.inr h2)
      rw [skip_stay h1] at this
      simpa using this
  · simpa using next_word _ _ _ true s i h hp hq (Or.inl h1)

/-! ## Ends of words -/

theorem end_word (sort : Char → Option Bool) (p q : Char → Bool) (b : Bool) (s : List Char) (i : Nat)
    (hp : ∀ c, p c = true ↔ sort c = some b) (hq : ∀ c, q c = true ↔ sort c = none) (h : isAt p s (skip q s i) = true) :
    ∃ e, skip p s (skip q s i) = e + 1 ∧ i ≤ e ∧ e < s.length ∧ IsEnd sort s e ∧ ∀ j, i ≤ j → j < e → ¬IsEnd sort s j := by
  generalize ha : skip q s i = a at *
  obtain ⟨c, hc, hpc⟩ := isAt_true h
  have hal := get_lt hc
  have hst := skip_step h
  generalize hb : skip p s a = b' at *
  have h0 := le_skip p s (a + 1)
  have h1 := le_skip q s i
  have h3 := skip_in q s i
  have h4 := skip_in p s a
  have h6 := skip_stop p s a
  have hle := skip_le p s a (by omega)
  rw [ha] at h1 h3; rw [hb] at h4 h6 hle
  refine ⟨b' - 1, by omega, by omega, by omega, ?_, ?_⟩
  · obtain ⟨e, he, he'⟩ := h4 (b' - 1) (by omega) (by omega)
    refine ⟨e, b, he, (hp e).1 he', fun d hd => ?_⟩
    have := h6 d (by rwa [show b' - 1 + 1 = b' by omega] at hd)
    grind
  · rintro j hj hj' ⟨d, x, hd, hx, hpp⟩
    by_cases hja : j < a
    · obtain ⟨e, he, he'⟩ := h3 j (by omega) (by omega)
      grind
    · obtain ⟨e, he, he'⟩ := h4 j (by omega) (by omega)
      obtain ⟨f, hf, hf'⟩ := h4 (j + 1) (by omega) (by omega)
      have := hpp f hf
      grind

theorem no_end (sort : Char → Option Bool) (q : Char → Bool) (s : List Char) (i : Nat) (hq : ∀ c, q c = true ↔ sort c = none)
    (h : s.length ≤ skip q s i) : ∀ j, i ≤ j → ¬IsEnd sort s j := by
  rintro j hj ⟨c, x, hc, hx, -⟩
  have := get_lt hc
  obtain ⟨e, he, he'⟩ := skip_in q s i j hj (by omega)
  grind

theorem sortBy_sep (sep : Char → Bool) : (∀ c, (fun c => !sep c) c = true ↔ sortBy sep c = some true) ∧
    ∀ c, sep c = true ↔ sortBy sep c = none := by
  constructor <;> intro c <;> simp only [sortBy] <;> grind

/-- What the bigword and semiword motions to the end find: if no word ends after `i`, the last character. -/
theorem nextEndPlain_spec (sep : Char → Bool) (s : List Char) (i n : Nat) (h : i < s.length) :
    ∃ r, nextEndPlain sep s true i (n + 2) i = some r ∧ i < r ∧ r ≤ s.length ∧
      ((∀ j, i < j → ¬IsEnd (sortBy sep) s j) ∧ r = (if i + 1 < s.length then s.length - 1 else s.length) ∨
        FirstAfter (IsEnd (sortBy sep) s) i r) := by
  obtain ⟨hp, hq⟩ := sortBy_sep sep
  -- one round from `k`
  have round : ∀ k, k < s.length → (isAt (fun c => !sep c) s (skip sep s k) = true ∨ (skip sep s k = s.length ∧
      skip (fun c => !sep c) s (skip sep s k) = s.length)) := by
    intro k hk
    have hle := skip_le sep s k (by omega)
    rcases Nat.lt_or_ge (skip sep s k) s.length with h1 | h1
    · obtain ⟨c, hc⟩ := get_of_lt h1
      have := skip_stop sep s k c hc
      left; rw [isAt_some hc]; simp [this]
    · right
      have h2 : skip sep s k = s.length := by omega
      refine ⟨h2, ?_⟩
      rw [h2]
      exact skip_stay (isAt_none (by simp))
  obtain ⟨c, hc⟩ := get_of_lt h
  rw [nextEndPlain, hc]
  simp only [Bool.not_true, Bool.or_false, decide_eq_true_eq]
  rcases round i h with hr | ⟨hr, hr'⟩
  · obtain ⟨e, he, hie, hel, hend, hfirst⟩ := end_word _ _ _ true s i hp hq hr
    rw [he, Nat.add_sub_cancel]
    by_cases hei : e > i
    · rw [if_pos hei]
      exact ⟨e, rfl, hei, by omega, Or.inr ⟨hei, hend, fun j hj hj' => hfirst j (by omega) hj'⟩⟩
    · rw [if_neg hei]
      have hei' : e = i := by omega
      subst hei'
      rw [nextEndPlain]
      rcases Nat.lt_or_ge (e + 1) s.length with hl | hl
      · obtain ⟨d, hd⟩ := get_of_lt hl
        rw [hd]
        simp only [Bool.not_true, Bool.or_false, decide_eq_true_eq]
        rcases round (e + 1) hl with hr2 | ⟨hr2, hr2'⟩
        · obtain ⟨e2, he2, hie2, hel2, hend2, hfirst2⟩ := end_word _ _ _ true s (e + 1) hp hq hr2
          rw [he2, Nat.add_sub_cancel, if_pos (by omega)]
          exact ⟨e2, rfl, by omega, by omega, Or.inr ⟨by omega, hend2, fun j hj hj' => hfirst2 j (by omega) hj'⟩⟩
        · rw [hr2', if_pos (by omega)]
          refine ⟨_, rfl, by omega, by omega, Or.inl ⟨fun j hj => no_end _ sep s (e + 1) hq (by omega) j (by omega), ?_⟩⟩
          rw [if_pos hl]
      · have : s[e + 1]? = none := by simp; omega
        rw [this]
        refine ⟨_, rfl, by omega, by omega, Or.inl ⟨?_, ?_⟩⟩
        · rintro j hj ⟨d, x, hd, -⟩; have := get_lt hd; omega
        · rw [if_neg (by omega)]; omega
  · rw [hr']
    have hno := no_end _ sep s i hq (by omega)
    by_cases hil : s.length - 1 > i
    · rw [if_pos hil]
      exact ⟨_, rfl, by omega, by omega, Or.inl ⟨fun j hj => hno j (by omega), by rw [if_pos (by omega)]⟩⟩
    · rw [if_neg hil, nextEndPlain]
      have : s[s.length - 1 + 1]? = none := by simp; omega
      rw [this]
      exact ⟨_, rfl, by omega, by omega, Or.inl ⟨fun j hj => hno j (by omega), by rw [if_neg (by omega)]; omega⟩⟩

theorem nextEndPlain_here (sep : Char → Bool) (s : List Char) (i n : Nat) (h : isAt (fun c => !sep c) s i = true) :
    ∃ r, nextEndPlain sep s false i (n + 1) i = some r ∧ i ≤ r ∧ r < s.length ∧ IsEnd (sortBy sep) s r ∧
      ∀ j, i ≤ j → j < r → ¬IsEnd (sortBy sep) s j := by
  obtain ⟨hp, hq⟩ := sortBy_sep sep
  obtain ⟨c, hc, hsc⟩ := isAt_true h
  have hs : skip sep s i = i := skip_stay (by rw [isAt_some hc]; simpa using hsc)
  obtain ⟨e, he, hie, hel, hend, hfirst⟩ := end_word _ _ _ true s i hp hq (by rw [hs]; exact h)
  rw [nextEndPlain, hc]
  simp only [he, Nat.add_sub_cancel, Bool.not_false, Bool.or_true, if_true]
  exact ⟨e, rfl, hie, hel, hend, hfirst⟩

theorem viSorts (C : Chars) (hC : Sane C) : (∀ c, C.blank c = true ↔ sortOf C .viword c = none) ∧
    (∀ c, viAlnum C c = true ↔ sortOf C .viword c = some true) ∧
    (∀ c, (fun c => !viAlnum C c && !C.blank c) c = true ↔ sortOf C .viword c = some false) := by
  refine ⟨?_, ?_, ?_⟩ <;> intro c <;> have := hC c <;> simp only [sortOf, viAlnum] <;> grind

/-- One round of `nextEndVi`. -/
theorem nextEndVi_round (C : Chars) (hC : Sane C) (s : List Char) (progress : Bool) (init n k : Nat) (hk : k ≤ s.length) :
    (nextEndVi C s progress init (n + 1) k = some s.length ∧ ∀ j, k ≤ j → ¬IsEnd (sortOf C .viword) s j) ∨
    ∃ e, k ≤ e ∧ e < s.length ∧ IsEnd (sortOf C .viword) s e ∧ (∀ j, k ≤ j → j < e → ¬IsEnd (sortOf C .viword) s j) ∧
      nextEndVi C s progress init (n + 1) k =
        if e > init || !progress then some e else nextEndVi C s progress init n (e + 1) := by
  obtain ⟨hq, hp, hp'⟩ := viSorts C hC
  rw [nextEndVi]
  have hle := skip_le C.blank s k hk
  cases hc : s[skip C.blank s k]? with
  | none =>
    left
    have : s.length ≤ skip C.blank s k := by simpa using hc
    exact ⟨by simp only; congr 1; omega, no_end _ C.blank s k hq this⟩
  | some c =>
    right
    have hb := skip_stop C.blank s k c hc
    simp only
    cases ha : viAlnum C c
    · have ht : isAt (fun c => !viAlnum C c && !C.blank c) s (skip C.blank s k) = true := by rw [isAt_some hc]; simp [ha, hb]
      obtain ⟨e, he, hie, hel, hend, hfirst⟩ := end_word _ _ _ false s k hp' hq ht
      refine ⟨e, hie, hel, hend, hfirst, ?_⟩
      simp only [Bool.false_eq_true, if_false, ← skip_step ht, he, Nat.add_sub_cancel]
    · have ht : isAt (viAlnum C) s (skip C.blank s k) = true := by rw [isAt_some hc]; exact ha
      obtain ⟨e, he, hie, hel, hend, hfirst⟩ := end_word _ _ _ true s k hp hq ht
      refine ⟨e, hie, hel, hend, hfirst, ?_⟩
      simp only [if_true, ← skip_step ht, he, Nat.add_sub_cancel]

/-- What the viword motion to the end finds: if no word ends after `i`, the end of the line. -/
theorem nextEndVi_spec (C : Chars) (hC : Sane C) (s : List Char) (i n : Nat) (h : i < s.length) :
    ∃ r, nextEndVi C s true i (n + 2) i = some r ∧ i < r ∧ r ≤ s.length ∧
      ((∀ j, i < j → ¬IsEnd (sortOf C .viword) s j) ∧ r = s.length ∨ FirstAfter (IsEnd (sortOf C .viword) s) i r) := by
  rcases nextEndVi_round C hC s true i (n + 1) i (by omega) with ⟨h1, h2⟩ | ⟨e, hie, hel, hend, hfirst, heq⟩
  · exact ⟨_, h1, h, by omega, Or.inl ⟨fun j hj => h2 j (by omega), rfl⟩⟩
  · rw [heq]
    simp only [Bool.not_true, Bool.or_false, decide_eq_true_eq]
    by_cases hei : e > i
    · rw [if_pos hei]
      exact ⟨e, rfl, hei, by omega, Or.inr ⟨hei, hend, fun j hj hj' => hfirst j (by omega) hj'⟩⟩
    · rw [if_neg hei]
      rcases nextEndVi_round C hC s true i n (e + 1) (by omega) with ⟨h1, h2⟩ | ⟨e2, hie2, hel2, hend2, hfirst2, heq2⟩
      · exact ⟨_, h1, h, by omega, Or.inl ⟨fun j hj => h2 j (by omega), rfl⟩⟩
      · rw [heq2]
        simp only [Bool.not_true, Bool.or_false, decide_eq_true_eq]
        rw [if_pos (by omega)]
        exact ⟨e2, rfl, by omega, by omega, Or.inr ⟨by omega, hend2, fun j hj hj' => hfirst2 j (by omega) hj'⟩⟩

theorem nextEndVi_here (C : Chars) (hC : Sane C) (s : List Char) (i n : Nat) (h : i < s.length) (hb : isAt C.blank s i = false) :
    ∃ r, nextEndVi C s false i (n + 1) i = some r ∧ i ≤ r ∧ r < s.length ∧ IsEnd (sortOf C .viword) s r ∧
      ∀ j, i ≤ j → j < r → ¬IsEnd (sortOf C .viword) s j := by
  rcases nextEndVi_round C hC s false i n i (by omega) with ⟨h1, h2⟩ | ⟨e, hie, hel, hend, hfirst, heq⟩
  · exfalso
    obtain ⟨hq, hp, hp'⟩ := viSorts C hC
    obtain ⟨c, hc⟩ := get_of_lt h
    have hs : skip C.blank s i = i := skip_stay hb
    rw [isAt_some hc] at hb
    cases ha : viAlnum C c
    · obtain ⟨e, he, hie, hel, hend, hfirst⟩ := end_word _ _ _ false s i hp' hq (by rw [hs, isAt_some hc]; simp [ha, hb])
      exact h2 e hie hend
    · obtain ⟨e, he, hie, hel, hend, hfirst⟩ := end_word _ _ _ true s i hp hq (by rw [hs, isAt_some hc]; exact ha)
      exact h2 e hie hend
  · rw [heq]
    exact ⟨e, by simp, hie, hel, hend, hfirst⟩

/-! ## Words before the cursor -/

theorem back_le (q : Nat → Bool) : ∀ i, back q i ≤ i
  | 0 => by simp [back]
  | i + 1 => by
    have := back_le q i
    rw [back]; split <;> omega

theorem back_in (q : Nat → Bool) : ∀ i j, back q i < j → j ≤ i → q j = true
  | 0, j, h, h' => by simp [back] at h; omega
  | i + 1, j, h, h' => by
    rw [back] at h; split at h
    · rename_i hq
      by_cases hj : j = i + 1
      · rw [hj]; exact hq
      · exact back_in q i j h (by omega)
    · omega

theorem back_stop (q : Nat → Bool) : ∀ i, back q i ≠ 0 → q (back q i) = false
  | 0, h => by simp [back] at h
  | i + 1, h => by
    rw [back] at h ⊢; split at h
    · rename_i hq; rw [if_pos hq]; exact back_stop q i h
    · rename_i hq; rw [if_neg hq]; simpa using hq

/-- One round of `prevPlain`. -/
theorem prevPlain_round (sep : Char → Bool) (s : List Char) (sepAt : Nat → Bool) (hs : ∀ (j : Nat) (c : Char), s[j]? = some c → sepAt j = sep c)
    (init n k : Nat) :
    (prevPlain sepAt init (n + 1) k = some 0 ∧ ∀ j, 1 < j → j ≤ k → j < s.length → ¬IsStart (sortBy sep) s j) ∨
    ∃ r, 0 < r ∧ r + 1 ≤ k ∧ (r + 1 < s.length → IsStart (sortBy sep) s (r + 1)) ∧
      (∀ j, r + 1 < j → j ≤ k → ¬IsStart (sortBy sep) s j) ∧ (∀ c, s[r]? = some c → sep c = true) ∧
      prevPlain sepAt init (n + 1) k = if r + 1 < init then some (r + 1) else prevPlain sepAt init n r := by
  rw [prevPlain]
  have h1 := back_le sepAt k
  have h2 := back_in sepAt k
  have h3 := back_stop sepAt k
  generalize back sepAt k = a at *
  have h4 := back_le (fun i => !sepAt i) a
  have h5 := back_in (fun i => !sepAt i) a
  have h6 := back_stop (fun i => !sepAt i) a
  generalize back (fun i => !sepAt i) a = b at *
  have key : ∀ j, b + 1 < j → j ≤ k → ¬IsStart (sortBy sep) s j := by
    rintro j hj hj' ⟨c, x, hc, hx, hp⟩
    have hcl := get_lt hc
    by_cases hja : j ≤ a
    · have h7 := h5 j (by omega) hja
      have h8 := h5 (j - 1) (by omega) (by omega)
      obtain ⟨d, hd⟩ := get_of_lt (show j - 1 < s.length by omega)
      have := hp (j - 1) d (by omega) hd
      have := hs j c hc
      have := hs (j - 1) d hd
      simp only [sortBy] at *; grind
    · have h7 := h2 j (by omega) hj'
      have := hs j c hc
      simp only [sortBy] at *; grind
  by_cases hb : b = 0
  · left
    refine ⟨by simp [hb], fun j hj hj' _ => key j (by omega) hj'⟩
  · right
    have hsb := h6 hb
    have hsa := h3 (by omega)
    have hab : b < a := by
      rcases Nat.lt_or_ge b a with h | h
      · exact h
      · have : b = a := by omega
        subst this; simp [hsa] at hsb
    refine ⟨b, by omega, by omega, ?_, key, ?_, by simp [hb]⟩
    · intro hl
      obtain ⟨c, hc⟩ := get_of_lt hl
      have h7 := h5 (b + 1) (by omega) (by omega)
      have := hs _ _ hc
      refine ⟨c, true, hc, by simp only [sortBy]; grind, ?_⟩
      intro i d hi hd
      have : i = b := by omega
      subst this
      have := hs _ _ hd
      simp only [sortBy]; grind
    · intro c hc; have := hs _ _ hc; grind

/-- What the backward motions for bigwords, semiwords and emacswords find: a word that starts at the second character is
missed. -/
theorem prevPlain_spec (sep : Char → Bool) (s : List Char) (sepAt : Nat → Bool) (hs : ∀ (j : Nat) (c : Char), s[j]? = some c → sepAt j = sep c)
    (i n : Nat) (hi : i ≤ s.length) :
    ∃ r, prevPlain sepAt i (n + 2) i = some r ∧ r ≤ i ∧ (0 < i → r < i) ∧
      (r = 0 ∧ (∀ j, 1 < j → j < i → ¬IsStart (sortBy sep) s j) ∨ 1 < r ∧ LastBefore (IsStart (sortBy sep) s) i r) := by
  rcases prevPlain_round sep s sepAt hs i (n + 1) i with ⟨h1, h2⟩ | ⟨r, hr, hrk, hst, hno, hsep, heq⟩
  · exact ⟨0, h1, by omega, by omega, Or.inl ⟨rfl, fun j hj hj' => h2 j hj (by omega) (by omega)⟩⟩
  · rw [heq]
    by_cases hri : r + 1 < i
    · rw [if_pos hri]
      exact ⟨_, rfl, by omega, by omega, Or.inr ⟨by omega, hri, hst (by omega), fun j hj hj' => hno j hj (by omega)⟩⟩
    · rw [if_neg hri]
      have hri' : r + 1 = i := by omega
      obtain ⟨c, hc⟩ := get_of_lt (show r < s.length by omega)
      rcases prevPlain_round sep s sepAt hs i n r with ⟨h1, h2⟩ | ⟨r2, hr2, hrk2, hst2, hno2, hsep2, heq2⟩
      · exact ⟨0, h1, by omega, by omega, Or.inl ⟨rfl, fun j hj hj' => h2 j hj (by omega) (by omega)⟩⟩
      · rw [heq2, if_pos (by omega)]
        exact ⟨_, rfl, by omega, by omega, Or.inr ⟨by omega, by omega, hst2 (by omega), fun j hj hj' => hno2 j hj (by omega)⟩⟩

theorem backDo_spec (q : Nat → Bool) : ∀ i, match backDo q i with
    | none => ∀ j, j < i → q j = true
    | some r => r < i ∧ q r = false ∧ ∀ j, r < j → j < i → q j = true
  | 0 => by simp [backDo]
  | i + 1 => by
    have ih := backDo_spec q i
    rw [backDo]
    cases hq : q i
    · simp only [Bool.false_eq_true, if_false]
      exact ⟨by omega, hq, fun j h h' => by omega⟩
    · simp only [if_true]
      cases hb : backDo q i with
      | none =>
        rw [hb] at ih; simp only at ih ⊢
        intro j hj
        by_cases hji : j = i
        · rw [hji]; exact hq
        · exact ih j (by omega)
      | some r =>
        rw [hb] at ih; simp only at ih ⊢
        refine ⟨by omega, ih.2.1, fun j hj hj' => ?_⟩
        by_cases hji : j = i
        · rw [hji]; exact hq
        · exact ih.2.2 j hj (by omega)

/-- One round of `prevVi` for a word of one sort. -/
theorem prevVi_sort (sort : Char → Option Bool) (p : Char → Bool) (b : Bool) (q : Nat → Bool) (s : List Char) (a k : Nat)
    (hp : ∀ c, p c = true ↔ sort c = some b) (hq : ∀ (j : Nat) (c : Char), s[j]? = some c → q j = p c)
    (hak : a ≤ k) (hk : k ≤ s.length) (ha : ∀ c, s[a]? = some c → a ≠ 0 → p c = true) (ha0 : ∀ c, s[0]? = some c → a = 0 → 0 < k → sort c = none ∨ p c = true)
    (hbl : ∀ j c, a < j → j ≤ k → s[j]? = some c → sort c = none) :
    match backDo q a with
    | none => ∀ j, 0 < j → j ≤ k → j < s.length → ¬IsStart sort s j
    | some r => r + 1 ≤ a ∧ (r + 1 < s.length → IsStart sort s (r + 1)) ∧ ∀ j, r + 1 < j → j ≤ k → ¬IsStart sort s j := by
  have hs := backDo_spec q a
  cases hb : backDo q a with
  | none =>
    rw [hb] at hs
    simp only at hs ⊢
    rintro j hj hjk hjl ⟨c, x, hc, hx, hpp⟩
    by_cases hja : j ≤ a
    · obtain ⟨d, hd⟩ := get_of_lt (show j - 1 < s.length by omega)
      have h1 := hs (j - 1) (by omega)
      have h2 := hq _ _ hd
      have h3 := hpp (j - 1) d (by omega) hd
      have h4 : p c = true := by
        by_cases hje : j = a
        · subst hje; exact ha c hc (by omega)
        · rw [← hq _ _ hc]; exact hs j (by omega)
      grind
    · have := hbl j c (by omega) hjk hc
      grind
  | some r =>
    rw [hb] at hs
    simp only at hs ⊢
    obtain ⟨hra, hqr, hin⟩ := hs
    have hpj : ∀ j c, r < j → j ≤ a → s[j]? = some c → p c = true := by
      intro j c hj hja hc
      by_cases hje : j = a
      · subst hje; exact ha c hc (by omega)
      · rw [← hq _ _ hc]; exact hin j hj (by omega)
    refine ⟨by omega, ?_, ?_⟩
    · intro hl
      obtain ⟨c, hc⟩ := get_of_lt hl
      refine ⟨c, b, hc, (hp c).1 (hpj _ c (by omega) (by omega) hc), fun i d hi hd => ?_⟩
      have : i = r := by omega
      subst this
      have := hq _ _ hd
      grind
    · rintro j hj hjk ⟨c, x, hc, hx, hpp⟩
      have hjl := get_lt hc
      by_cases hja : j ≤ a
      · obtain ⟨d, hd⟩ := get_of_lt (show j - 1 < s.length by omega)
        have h1 := hpj _ c (by omega) hja hc
        have h2 := hpj _ d (by omega) (by omega) hd
        have h3 := hpp (j - 1) d (by omega) hd
        grind
      · have := hbl j c (by omega) hjk hc
        grind

/-- One round of `prevVi`. -/
theorem prevVi_round (C : Chars) (hC : Sane C) (s : List Char) (init n k : Nat) (hk : k ≤ s.length) :
    (prevVi C s init (n + 1) k = some 0 ∧ ∀ j, 0 < j → j ≤ k → j < s.length → ¬IsStart (sortOf C .viword) s j) ∨
    ∃ r, r + 1 ≤ k ∧ (r + 1 < s.length → IsStart (sortOf C .viword) s (r + 1)) ∧
      (∀ j, r + 1 < j → j ≤ k → ¬IsStart (sortOf C .viword) s j) ∧
      prevVi C s init (n + 1) k = if r + 1 < init then some (r + 1) else prevVi C s init n r := by
  obtain ⟨hq, hp, hp'⟩ := viSorts C hC
  rw [prevVi]
  have h1 := back_le (isAt C.blank s) k
  have h2 := back_in (isAt C.blank s) k
  have h3 := back_stop (isAt C.blank s) k
  generalize back (isAt C.blank s) k = a at *
  have hbl : ∀ (j : Nat) (c : Char), a < j → j ≤ k → s[j]? = some c → sortOf C .viword c = none := by
    intro j c hj hjk hc
    have := h2 j hj hjk
    rw [isAt_some hc] at this
    exact (hq c).1 this
  cases hal : isAt (viAlnum C) s a
  · simp only [hal, Bool.false_eq_true, if_false]
    have := prevVi_sort (sortOf C .viword) (fun c => !viAlnum C c && !C.blank c) false (fun i => !isAt (viAlnum C) s i && !isAt C.blank s i) s a k
      hp' (fun j c hc => by simp [isAt_some hc]) h1 hk
      (fun c hc ha => by have := h3 ha; rw [isAt_some hc] at this hal; simp [this, hal])
      (fun c hc ha _ => by
        subst ha; rw [isAt_some hc] at hal
        cases hb : C.blank c
        · right; simp [hal]
        · left; exact (hq c).1 hb)
      hbl
    cases hb : backDo (fun i => !isAt (viAlnum C) s i && !isAt C.blank s i) a with
    | none => rw [hb] at this; exact Or.inl ⟨rfl, this⟩
    | some r => rw [hb] at this; exact Or.inr ⟨r, by omega, this.2.1, this.2.2, rfl⟩
  · simp only [hal, if_true]
    obtain ⟨c0, hc0, hv0⟩ := isAt_true hal
    have := prevVi_sort (sortOf C .viword) (viAlnum C) true (isAt (viAlnum C) s) s a k
      hp (fun j c hc => isAt_some hc) h1 hk
      (fun c hc ha => by rw [isAt_some hc] at hal; exact hal)
      (fun c hc ha _ => by subst ha; rw [isAt_some hc] at hal; exact Or.inr hal)
      hbl
    cases hb : backDo (isAt (viAlnum C) s) a with
    | none => rw [hb] at this; exact Or.inl ⟨rfl, this⟩
    | some r => rw [hb] at this; exact Or.inr ⟨r, by omega, this.2.1, this.2.2, rfl⟩

theorem prevVi_spec (C : Chars) (hC : Sane C) (s : List Char) (i n : Nat) (hi : i ≤ s.length) :
    ∃ r, prevVi C s i (n + 2) i = some r ∧ r ≤ i ∧ (0 < i → r < i) ∧
      (r = 0 ∧ (∀ j, 0 < j → j < i → ¬IsStart (sortOf C .viword) s j) ∨ LastBefore (IsStart (sortOf C .viword) s) i r) := by
  rcases prevVi_round C hC s i (n + 1) i hi with ⟨h1, h2⟩ | ⟨r, hrk, hst, hno, heq⟩
  · exact ⟨0, h1, by omega, by omega, Or.inl ⟨rfl, fun j hj hj' => h2 j hj (by omega) (by omega)⟩⟩
  · rw [heq]
    by_cases hri : r + 1 < i
    · rw [if_pos hri]
      exact ⟨_, rfl, by omega, by omega, Or.inr ⟨hri, hst (by omega), fun j hj hj' => hno j hj (by omega)⟩⟩
    · rw [if_neg hri]
      rcases prevVi_round C hC s i n r (by omega) with ⟨h1, h2⟩ | ⟨r2, hrk2, hst2, hno2, heq2⟩
      · exact ⟨0, h1, by omega, by omega, Or.inl ⟨rfl, fun j hj hj' => h2 j hj (by omega) (by omega)⟩⟩
      · rw [heq2, if_pos (by omega)]
        exact ⟨_, rfl, by omega, by omega, Or.inr ⟨by omega, hst2 (by omega), fun j hj hj' => hno2 j hj (by omega)⟩⟩

end Yash.Edit
