import Verif.Fnmatch.Encode
/-!
# The regular expression matches what the pattern matches
-/
set_option autoImplicit false

namespace Yash.Fnmatch

open Spec (Tok Atom Items Bracket Reads isKind unquoted Plausible PlausiblePattern Matches
  MatchesAt Accepts Goal Finds)

variable (loc : Locale)

/-- Every pattern can be read. -/
theorem reads_total : ∀ (n : Nat) (pat : List Char), pat.length ≤ n → ∃ as, Reads pat as := by
  intro n
  induction n with
  | zero =>
    intro pat h
    have : pat = [] := List.eq_nil_of_length_eq_zero (by omega)
    exact ⟨[], this ▸ Reads.nil⟩
  | succ n ih =>
    intro pat h
    cases pat with
    | nil => exact ⟨[], Reads.nil⟩
    | cons c s =>
      have hs : s.length ≤ n := by simpa using h
      obtain ⟨as, ha⟩ := ih s hs
      by_cases h1 : c = '?'
      · exact ⟨_, h1 ▸ Reads.any _ _ ha⟩
      by_cases h2 : c = '*'
      · exact ⟨_, h2 ▸ Reads.star _ _ ha⟩
      by_cases h3 : c = '\\'
      · subst h3
        cases s with
        | nil => exact ⟨_, Reads.backslash⟩
        | cons d s =>
          obtain ⟨as, ha⟩ := ih s (by simp at hs; omega)
          exact ⟨_, Reads.quoted _ _ _ ha⟩
      by_cases h4 : c = '['
      · subst h4
        by_cases hb : ∃ body rest neg ts, s = body ++ rest ∧ Bracket body neg ts
        · obtain ⟨body, rest, neg, ts, rfl, hb⟩ := hb
          obtain ⟨as, ha⟩ := ih rest (by simp at hs; omega)
          exact ⟨_, Reads.set _ _ _ _ _ hb ha⟩
        · exact ⟨_, Reads.noSet _ _ (fun body rest neg ts he hb' => hb ⟨_, _, _, _, he, hb'⟩) ha⟩
      exact ⟨_, Reads.plain _ _ _ h1 h2 h3 h4 ha⟩

/-- The symbols in a pattern are of the three kinds. -/
def Kinds (as : List Atom) : Prop :=
  ∀ neg ts, Atom.set neg ts ∈ as → ∀ t ∈ ts, ∀ k u, t = Tok.sym k u → isKind k

theorem reads_kinds {pat : List Char} {as : List Atom} (h : Reads pat as) : Kinds as := by
  induction h with
  | nil => intro neg ts h; cases h
  | backslash => intro neg ts h; cases h
  | any _ _ _ ih | star _ _ _ ih | quoted _ _ _ _ ih | noSet _ _ _ _ ih | plain _ _ _ _ _ _ _ _ ih =>
    intro neg ts h
    rcases List.mem_cons.mp h with h | h
    · cases h
    · exact ih neg ts h
  | set body s neg ts as hb _ ih =>
    intro neg' ts' h
    rcases List.mem_cons.mp h with h | h
    · cases h
      exact bracket_kinds hb
    · exact ih neg' ts' h

theorem map_items {ts : List Tok} (h : ∀ t ∈ ts, ∀ k u, t = Tok.sym k u → isKind k) :
    (ts.map btok).map BTok.item = ts.map Tok.item := by
  rw [List.map_map]
  apply List.map_congr_left
  intro t ht
  exact btok_item t (h t ht)

theorem starMatch_iff (k : List Char → Bool) (s : List Char) :
    starMatch (fun _ => true) k s = true ↔ ∃ u v, s = u ++ v ∧ k v = true := by
  induction s with
  | nil =>
    simp only [starMatch]
    constructor
    · intro h; exact ⟨[], [], rfl, h⟩
    · rintro ⟨u, v, h, hk⟩
      have := congrArg List.length h
      simp only [List.length_nil, List.length_append] at this
      rw [List.eq_nil_of_length_eq_zero (l := v) (by omega)] at hk
      exact hk
  | cons c s ih =>
    simp only [starMatch, Bool.or_eq_true, Bool.true_and, ih]
    constructor
    · rintro (h | ⟨u, v, h, hk⟩)
      · exact ⟨[], _, rfl, h⟩
      · exact ⟨c :: u, v, by rw [h]; rfl, hk⟩
    · rintro ⟨u, v, h, hk⟩
      cases u with
      | nil => left; rw [h]; exact hk
      | cons d u =>
        simp only [List.cons_append, List.cons.injEq] at h
        exact Or.inr ⟨u, v, h.2, hk⟩

theorem test_iff (icase : Bool) (a : Atom) (c : Char) (hk : Kinds [a]) (ha : a ≠ .star) :
    (tr a).1.test loc icase c = true ↔ Accepts loc icase a c := by
  cases a with
  | lit d =>
    simp only [tr, BAtom.test, Accepts]
    cases icase <;> simp
  | any => simp [tr, BAtom.test, Accepts]
  | star => exact absurd rfl ha
  | set neg ts =>
    simp only [tr, BAtom.test, Accepts]
    rw [map_items (hk neg ts (by simp))]

theorem matches_cons {icase : Bool} {a : Atom} {as : List Atom} {s : List Char}
    (h : Matches loc icase (a :: as) s) :
    (a = .star ∧ ∃ u v, s = u ++ v ∧ Matches loc icase as v) ∨
    (∃ c s', s = c :: s' ∧ Accepts loc icase a c ∧ Matches loc icase as s') := by
  generalize hl : a :: as = l at h
  cases h with
  | nil => cases hl
  | star as' u v h => cases hl; exact Or.inl ⟨rfl, u, v, rfl, h⟩
  | one a' c as' s' h1 h2 => cases hl; exact Or.inr ⟨c, s', rfl, h1, h2⟩

theorem atomsMatch_iff (icase : Bool) (as : List Atom) (hk : Kinds as) :
    ∀ s, atomsMatch loc icase (as.map tr) s = true ↔ Matches loc icase as s := by
  induction as with
  | nil =>
    intro s
    simp only [List.map_nil, atomsMatch, List.isEmpty_iff]
    constructor
    · rintro rfl; exact .nil
    · intro h; cases h; rfl
  | cons a as ih =>
    have ih := ih (fun neg ts h => hk neg ts (List.mem_cons_of_mem _ h))
    intro s
    have hk1 : Kinds [a] := fun neg ts h => hk neg ts (by
      rw [List.mem_singleton] at h; rw [h]; exact List.mem_cons_self ..)
    by_cases ha : a = .star
    · subst ha
      have e : atomsMatch loc icase (List.map tr (Atom.star :: as)) s
          = starMatch (fun _ => true) (atomsMatch loc icase (as.map tr)) s := by
        simp only [List.map_cons, tr, atomsMatch]
        rfl
      rw [e, starMatch_iff]
      constructor
      · rintro ⟨u, v, rfl, h⟩
        exact .star as u v ((ih v).mp h)
      · intro h
        cases h with
        | star _ u v h => exact ⟨u, v, rfl, (ih v).mpr h⟩
        | one _ _ _ _ h => exact absurd h (by simp [Accepts])
    · have ht : (tr a).2 = false := by cases a <;> first | rfl | exact absurd rfl ha
      have ht' : tr a = ((tr a).1, false) := by rw [← ht]
      cases s with
      | nil =>
        rw [List.map_cons, ht', atomsMatch]
        constructor
        · intro h; cases h
        · intro h
          rcases matches_cons loc h with ⟨h, -⟩ | ⟨c, s', h, -⟩
          · exact absurd h ha
          · cases h
      | cons c s =>
        rw [List.map_cons, ht', atomsMatch, Bool.and_eq_true, test_iff loc icase a c hk1 ha, ih]
        constructor
        · rintro ⟨h1, h2⟩; exact .one a c as s h1 h2
        · intro h
          rcases matches_cons loc h with ⟨h, -⟩ | ⟨c, s', h, h1, h2⟩
          · exact absurd h ha
          · cases h; exact ⟨h1, h2⟩

/-! ## `regexec` -/

theorem regexec_some {re : Regex} {s : List Char} {i j : Nat} (h : regexec loc re s = some (i, j)) :
    i ≤ j ∧ j ≤ s.length ∧ re.matchAt loc s i j = true ∧
    ∀ i' j', i' ≤ j' → j' ≤ s.length → re.matchAt loc s i' j' = true →
      i < i' ∨ (i = i' ∧ j' ≤ j) := by
  unfold regexec at h
  rw [List.findSome?_eq_some_iff] at h
  obtain ⟨l1, a, l2, hl, ha, hb⟩ := h
  rw [Option.map_eq_some_iff] at ha
  obtain ⟨j', hj, he⟩ := ha
  cases he
  rw [List.find?_eq_some_iff_append] at hj
  obtain ⟨hm, m1, m2, hl', hb'⟩ := hj
  simp only [Bool.and_eq_true, decide_eq_true_eq] at hm
  have hjm : j ∈ List.range (s.length + 1) := by
    rw [← List.mem_reverse, hl']; simp
  have hjl := List.mem_range.mp hjm
  refine ⟨hm.1, by omega, hm.2, ?_⟩
  intro i' j' h1 h2 h3
  have hi' : i' ∈ List.range (s.length + 1) := List.mem_range.mpr (by omega)
  have hj' : j' ∈ (List.range (s.length + 1)).reverse := by
    rw [List.mem_reverse]; exact List.mem_range.mpr (by omega)
  have hord : (l1 ++ i :: l2).Pairwise (· < ·) := hl ▸ List.pairwise_lt_range
  rw [hl, List.mem_append, List.mem_cons] at hi'
  rcases hi' with hi' | rfl | hi'
  · have := hb i' hi'
    rw [Option.map_eq_none_iff, List.find?_eq_none] at this
    exact absurd (by simp [h1, h3]) (this j' hj')
  · refine Or.inr ⟨rfl, ?_⟩
    have hord2 : (m1 ++ j :: m2).Pairwise (fun a b => b < a) := by
      rw [← hl', List.pairwise_reverse]
      exact List.pairwise_lt_range
    rw [hl', List.mem_append, List.mem_cons] at hj'
    rcases hj' with hj' | rfl | hj'
    · have := hb' j' hj'
      simp [h1, h3] at this
    · exact Nat.le_refl _
    · have := (List.pairwise_cons.mp (List.pairwise_append.mp hord2).2.1).1 j' hj'
      omega
  · have := (List.pairwise_cons.mp (List.pairwise_append.mp hord).2.1).1 i' hi'
    exact Or.inl this

theorem regexec_none {re : Regex} {s : List Char} (h : regexec loc re s = none) :
    ∀ i j, i ≤ j → j ≤ s.length → re.matchAt loc s i j = false := by
  intro i j h1 h2
  unfold regexec at h
  rw [List.findSome?_eq_none_iff] at h
  have := h i (List.mem_range.mpr (by omega))
  rw [Option.map_eq_none_iff, List.find?_eq_none] at this
  have := this j (by rw [List.mem_reverse]; exact List.mem_range.mpr (by omega))
  simpa [h1] using this

/-- What the compiled regular expression matches. -/
theorem matchAt_iff (head tail icase : Bool) {as : List Atom} (hk : Kinds as) (s : List Char)
    (i j : Nat) :
    (Regex.mk head (as.map tr) tail icase).matchAt loc s i j = true ↔
      (head = true → i = 0) ∧ (tail = true → j = s.length) ∧
        Matches loc icase as ((s.take j).drop i) := by
  unfold Regex.matchAt
  simp only [Bool.and_eq_true, atomsMatch_iff loc icase as hk]
  cases head <;> cases tail <;> simp [and_assoc]

end Yash.Fnmatch
