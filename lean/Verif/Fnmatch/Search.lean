import Verif.Fnmatch.Lang
/-!
# Searching with a regular expression, and with a literal
-/
set_option autoImplicit false

namespace Yash.Fnmatch

open Spec (Tok Atom Items Bracket Reads isKind unquoted Plausible PlausiblePattern Matches
  MatchesAt Accepts Goal Finds)

variable (loc : Locale)

/-! ## Regular expressions -/

theorem longest_leftmost {icase : Bool} {as : List Atom} (hk : Kinds as) (s : List Char) :
    Finds loc icase .leftmost as s (wmatchLongest loc ⟨false, as.map tr, false, icase⟩ s) := by
  unfold wmatchLongest
  cases h : regexec loc ⟨false, as.map tr, false, icase⟩ s with
  | none =>
    intro i j _ hm
    have := regexec_none loc h i j hm.1 hm.2.1
    rw [← Bool.not_eq_true, matchAt_iff loc _ _ _ hk] at this
    exact this ⟨by simp, by simp, hm.2.2⟩
  | some p =>
    obtain ⟨i, j⟩ := p
    obtain ⟨h1, h2, h3, h4⟩ := regexec_some loc h
    rw [matchAt_iff loc _ _ _ hk] at h3
    refine ⟨trivial, ⟨h1, h2, h3.2.2⟩, ?_⟩
    intro i' j' _ hm
    exact h4 i' j' hm.1 hm.2.1 ((matchAt_iff loc _ _ _ hk s i' j').mpr ⟨by simp, by simp, hm.2.2⟩)

theorem longest_prefix {icase : Bool} {as : List Atom} (hk : Kinds as) (s : List Char) :
    Finds loc icase .longestPrefix as s (wmatchLongest loc ⟨true, as.map tr, false, icase⟩ s) := by
  unfold wmatchLongest
  cases h : regexec loc ⟨true, as.map tr, false, icase⟩ s with
  | none =>
    intro i j he hm
    have := regexec_none loc h i j hm.1 hm.2.1
    rw [← Bool.not_eq_true, matchAt_iff loc _ _ _ hk] at this
    exact this ⟨fun _ => he, by simp, hm.2.2⟩
  | some p =>
    obtain ⟨i, j⟩ := p
    obtain ⟨h1, h2, h3, h4⟩ := regexec_some loc h
    rw [matchAt_iff loc _ _ _ hk] at h3
    refine ⟨h3.1 rfl, ⟨h1, h2, h3.2.2⟩, ?_⟩
    intro i' j' he hm
    have hi : i = 0 := h3.1 rfl
    have hi' : i' = 0 := he
    rcases h4 i' j' hm.1 hm.2.1
      ((matchAt_iff loc _ _ _ hk s i' j').mpr ⟨fun _ => he, by simp, hm.2.2⟩) with h | h
    · omega
    · exact h.2

theorem longest_suffix {icase : Bool} {as : List Atom} (hk : Kinds as) (s : List Char) :
    Finds loc icase .longestSuffix as s (wmatchLongest loc ⟨false, as.map tr, true, icase⟩ s) := by
  unfold wmatchLongest
  cases h : regexec loc ⟨false, as.map tr, true, icase⟩ s with
  | none =>
    intro i j he hm
    have := regexec_none loc h i j hm.1 hm.2.1
    rw [← Bool.not_eq_true, matchAt_iff loc _ _ _ hk] at this
    exact this ⟨by simp, fun _ => he, hm.2.2⟩
  | some p =>
    obtain ⟨i, j⟩ := p
    obtain ⟨h1, h2, h3, h4⟩ := regexec_some loc h
    rw [matchAt_iff loc _ _ _ hk] at h3
    refine ⟨h3.2.1 rfl, ⟨h1, h2, h3.2.2⟩, ?_⟩
    intro i' j' he hm
    rcases h4 i' j' hm.1 hm.2.1
      ((matchAt_iff loc _ _ _ hk s i' j').mpr ⟨by simp, fun _ => he, hm.2.2⟩) with h | h
    · exact Nat.le_of_lt h
    · exact Nat.le_of_eq h.1

theorem headtail_iff {icase : Bool} {as : List Atom} (hk : Kinds as) (s : List Char) :
    (regexec loc ⟨true, as.map tr, true, icase⟩ s).isSome = true ↔ Matches loc icase as s := by
  cases h : regexec loc ⟨true, as.map tr, true, icase⟩ s with
  | none =>
    simp only [Option.isSome_none, Bool.false_eq_true, false_iff]
    intro hm
    have := regexec_none loc h 0 s.length (by omega) (by omega)
    rw [← Bool.not_eq_true, matchAt_iff loc _ _ _ hk] at this
    exact this ⟨by simp, by simp, by simpa using hm⟩
  | some p =>
    obtain ⟨i, j⟩ := p
    obtain ⟨h1, h2, h3, h4⟩ := regexec_some loc h
    rw [matchAt_iff loc _ _ _ hk] at h3
    obtain ⟨ha, hb, hm⟩ := h3
    obtain rfl := ha rfl
    obtain rfl := hb rfl
    simpa using hm

theorem prefix_exists {icase : Bool} {as : List Atom} (hk : Kinds as) (s : List Char) :
    (regexec loc ⟨true, as.map tr, false, icase⟩ s).isSome = true ↔
      ∃ j, j ≤ s.length ∧ Matches loc icase as (s.take j) := by
  have h := longest_prefix loc (icase := icase) hk s
  unfold wmatchLongest at h
  cases hr : regexec loc ⟨true, as.map tr, false, icase⟩ s with
  | none =>
    rw [hr] at h
    simp only [Option.isSome_none, Bool.false_eq_true, false_iff]
    rintro ⟨j, hj, hm⟩
    exact h 0 j rfl ⟨by omega, hj, by simpa using hm⟩
  | some p =>
    rw [hr] at h
    obtain ⟨i, j⟩ := p
    obtain ⟨h0, hm, -⟩ := h
    have h0 : i = 0 := h0
    subst h0
    simp only [Option.isSome_some, true_iff]
    exact ⟨j, hm.2.1, by simpa using hm.2.2⟩

theorem shortest_prefix_loop {icase : Bool} {as : List Atom} (hk : Kinds as) :
    ∀ (s buf : List Char), (∀ j, j < buf.length → ¬ Matches loc icase as (buf.take j)) →
    Finds loc icase .shortestPrefix as (buf ++ s)
      (wmatchShortestHead loc ⟨true, as.map tr, false, icase⟩ buf s) := by
  have found : ∀ (s buf : List Char), (∀ j, j < buf.length → ¬ Matches loc icase as (buf.take j)) →
      (regexec loc ⟨true, as.map tr, false, icase⟩ buf).isSome = true →
      Finds loc icase .shortestPrefix as (buf ++ s) (some (0, buf.length)) := by
    intro s buf hb h
    rw [prefix_exists loc hk] at h
    obtain ⟨j, hj, hm⟩ := h
    have hj' : j = buf.length := by
      apply Classical.byContradiction
      intro hn
      exact hb j (by omega) hm
    subst hj'
    refine ⟨rfl, ⟨by omega, by simp, by simpa using hm⟩, ?_⟩
    intro i' j' he hm'
    have he : i' = 0 := he
    subst he
    show buf.length ≤ j'
    apply Classical.byContradiction
    intro hn
    refine hb j' (by omega) ?_
    have := hm'.2.2
    rwa [List.drop_zero, List.take_append_of_le_length (by omega)] at this
  have notfound : ∀ (buf : List Char), ¬ (regexec loc ⟨true, as.map tr, false, icase⟩ buf).isSome = true →
      ∀ j, j ≤ buf.length → ¬ Matches loc icase as (buf.take j) := by
    intro buf h j hj hm
    exact h ((prefix_exists loc hk buf).mpr ⟨j, hj, hm⟩)
  intro s
  induction s with
  | nil =>
    intro buf hb
    rw [wmatchShortestHead]
    split
    · rename_i h; exact found [] buf hb h
    · rename_i h
      intro i j he hm
      have he : i = 0 := he
      subst he
      have h2 := hm.2.1
      simp only [List.append_nil] at h2
      exact notfound buf h j h2 (by simpa using hm.2.2)
  | cons c s ih =>
    intro buf hb
    rw [wmatchShortestHead]
    split
    · rename_i h; exact found (c :: s) buf hb h
    · rename_i h
      have := ih (buf ++ [c]) (by
        intro j hj hm
        simp only [List.length_append, List.length_cons, List.length_nil] at hj
        rw [List.take_append_of_le_length (by omega)] at hm
        exact notfound buf h j (by omega) hm)
      simpa using this

theorem shortest_prefix {icase : Bool} {as : List Atom} (hk : Kinds as) (s : List Char) :
    Finds loc icase .shortestPrefix as s
      (wmatchShortestHead loc ⟨true, as.map tr, false, icase⟩ [] s) := by
  simpa using shortest_prefix_loop loc (icase := icase) hk s [] (by simp)

theorem suffix_at {icase : Bool} {as : List Atom} {s : List Char} {i : Nat} :
    MatchesAt loc icase as s i s.length ↔ i ≤ s.length ∧ Matches loc icase as (s.drop i) := by
  unfold MatchesAt
  simp

theorem shortest_suffix_loop {icase : Bool} {as : List Atom} (hk : Kinds as) (s : List Char) :
    ∀ (n i : Nat) (result : Option (Nat × Nat)), i ≤ s.length → s.length < n + i →
      (∃ k, i ≤ k ∧ k ≤ s.length ∧ Matches loc icase as (s.drop k) ∧
        (∀ k', i ≤ k' → k' ≤ s.length → Matches loc icase as (s.drop k') → k' ≤ k) ∧
        wmatchShortestTail loc ⟨false, as.map tr, true, icase⟩ s n i result = some (k, s.length)) ∨
      ((∀ k, i ≤ k → k ≤ s.length → ¬ Matches loc icase as (s.drop k)) ∧
        wmatchShortestTail loc ⟨false, as.map tr, true, icase⟩ s n i result = result) := by
  intro n
  induction n with
  | zero => intro i result h1 h2; omega
  | succ n ih =>
    intro i result h1 h2
    have h := longest_suffix loc (icase := icase) hk (s.drop i)
    rw [wmatchShortestTail]
    cases hr : wmatchLongest loc ⟨false, as.map tr, true, icase⟩ (s.drop i) with
    | none =>
      right
      rw [hr] at h
      refine ⟨?_, rfl⟩
      intro k hk1 hk2 hm
      refine h (k - i) (s.drop i).length rfl ?_
      rw [suffix_at]
      refine ⟨by simp; omega, ?_⟩
      rw [List.drop_drop, show i + (k - i) = k from by omega]
      exact hm
    | some p =>
      obtain ⟨a, b⟩ := p
      rw [hr] at h
      obtain ⟨hb, hm, hbest⟩ := h
      have hb : b = (s.drop i).length := hb
      subst hb
      rw [suffix_at, List.drop_drop] at hm
      obtain ⟨ha, hm⟩ := hm
      simp only [List.length_drop] at ha
      have e1 : (s.drop i).length + i = s.length := by simp; omega
      have e2 : i + a = a + i := by omega
      rw [e2] at hm
      have hleft : ∀ k', i ≤ k' → k' ≤ s.length → Matches loc icase as (s.drop k') → a + i ≤ k' := by
        intro k' g1 g2 g3
        have := hbest (k' - i) (s.drop i).length rfl (by
          rw [suffix_at]
          refine ⟨by simp; omega, ?_⟩
          rw [List.drop_drop, show i + (k' - i) = k' from by omega]
          exact g3)
        have : a ≤ k' - i := this
        omega
      simp only [e1]
      split
      · rename_i hge
        left
        refine ⟨a + i, by omega, by omega, hm, ?_, rfl⟩
        intro k' _ g2 _
        omega
      · rename_i hge
        left
        rcases ih (a + i + 1) (some (a + i, s.length)) (by omega) (by omega) with
          ⟨k, g1, g2, g3, g4, g5⟩ | ⟨g1, g2⟩
        · refine ⟨k, by omega, g2, g3, ?_, g5⟩
          intro k' q1 q2 q3
          by_cases hq : a + i + 1 ≤ k'
          · exact g4 k' hq q2 q3
          · omega
        · refine ⟨a + i, by omega, by omega, hm, ?_, g2⟩
          intro k' q1 q2 q3
          by_cases hq : a + i + 1 ≤ k'
          · exact absurd q3 (g1 k' hq q2)
          · omega

theorem shortest_suffix {icase : Bool} {as : List Atom} (hk : Kinds as) (s : List Char) :
    Finds loc icase .shortestSuffix as s
      (wmatchShortestTail loc ⟨false, as.map tr, true, icase⟩ s (s.length + 1) 0 none) := by
  rcases shortest_suffix_loop loc (icase := icase) hk s (s.length + 1) 0 none (by omega) (by omega) with
    ⟨k, h1, h2, h3, h4, h5⟩ | ⟨h1, h2⟩
  · rw [h5]
    refine ⟨rfl, (suffix_at loc).mpr ⟨h2, h3⟩, ?_⟩
    intro i' j' he hm
    have he : j' = s.length := he
    subst he
    rw [suffix_at] at hm
    exact h4 i' (by omega) hm.1 hm.2
  · rw [h2]
    intro i j he hm
    have he : j = s.length := he
    subst he
    rw [suffix_at] at hm
    exact h1 i (by omega) hm.1 hm.2

/-! ## Literals -/

theorem items_close_mem {s : List Char} {ts : List Tok} (h : Items s ts) : ']' ∈ s := by
  induction h <;> simp_all

theorem bracket_close_mem {s : List Char} {neg : Bool} {ts : List Tok} (h : Bracket s neg ts) :
    ']' ∈ s := by
  cases h with
  | items _ _ _ _ _ _ hi => exact items_close_mem hi
  | neg _ _ _ _ _ _ hi => exact List.mem_cons_of_mem _ (items_close_mem hi)
  | first => simp
  | negFirst => simp

theorem reads_stars {s : List Char} (h : s.dropWhile (· == '*') = []) :
    ∀ {as : List Atom}, Reads s as → as = List.replicate s.length .star := by
  induction s with
  | nil => intro as hr; cases hr; rfl
  | cons c s ih =>
    intro as hr
    have hc : c = '*' := by
      by_cases hc : c = '*'
      · exact hc
      · rw [List.dropWhile_cons_of_neg (by simpa using hc)] at h; cases h
    subst hc
    have h' : s.dropWhile (· == '*') = [] := by simpa [List.dropWhile] using h
    cases hr with
    | star _ as hr => rw [ih h' hr]; rfl
    | plain _ _ _ _ h => exact absurd rfl h

theorem literalText_plain {c : Char} {s : List Char} (h1 : c ≠ '?') (h2 : c ≠ '*') (h3 : c ≠ '\\')
    (h4 : c ≠ '[') : literalText (c :: s) =
      (literalText s).map (fun p => (c :: p.1, p.2)) := by
  cases hl : literalText s with
  | none => unfold literalText; simp_all
  | some p => unfold literalText; simp_all

theorem literalText_reads {pat : List Char} {as : List Atom} (h : Reads pat as) :
    ∀ {lit : List Char} {ts : Bool}, literalText pat = some (lit, ts) →
      ∃ m, as = lit.map Atom.lit ++ List.replicate m .star ∧ (ts = true ↔ 0 < m) := by
  induction h with
  | nil => intro lit ts h; simp [literalText] at h; exact ⟨0, by simp [h]⟩
  | backslash => intro lit ts h; simp [literalText] at h; exact ⟨0, by simp [h]⟩
  | any => intro lit ts h; simp [literalText] at h
  | star s as hr _ =>
    intro lit ts h
    simp only [literalText] at h
    split at h
    · rename_i hd
      simp only [Option.some.injEq, Prod.mk.injEq] at h
      obtain ⟨rfl, rfl⟩ := h
      refine ⟨s.length + 1, ?_, by simp⟩
      rw [reads_stars hd hr]
      rfl
    · cases h
  | quoted c s as _ ih =>
    intro lit ts h
    simp only [literalText] at h
    split at h
    · rename_i hl
      simp only [Option.some.injEq, Prod.mk.injEq] at h
      obtain ⟨rfl, rfl⟩ := h
      obtain ⟨m, rfl, hm⟩ := ih hl
      exact ⟨m, rfl, hm⟩
    · cases h
  | set body s neg ts as hb _ ih =>
    intro lit ts h
    simp only [List.cons_append, literalText] at h
    rw [if_pos (by simp [bracket_close_mem hb])] at h
    cases h
  | noSet s as _ _ ih =>
    intro lit ts h
    simp only [literalText] at h
    split at h
    · cases h
    · split at h
      · rename_i hl
        simp only [Option.some.injEq, Prod.mk.injEq] at h
        obtain ⟨rfl, rfl⟩ := h
        obtain ⟨m, rfl, hm⟩ := ih hl
        exact ⟨m, rfl, hm⟩
      · cases h
  | plain c s as h1 h2 h3 h4 _ ih =>
    intro lit ts h
    rw [literalText_plain h1 h2 h3 h4, Option.map_eq_some_iff] at h
    obtain ⟨⟨l, t⟩, hl, he⟩ := h
    simp only [Prod.mk.injEq] at he
    obtain ⟨rfl, rfl⟩ := he
    obtain ⟨m, rfl, hm⟩ := ih hl
    exact ⟨m, rfl, hm⟩

theorem reads_dropStars {pat : List Char} : ∀ {as : List Atom}, Reads pat as →
    ∃ k as', as = List.replicate k .star ++ as' ∧ Reads (pat.dropWhile (· == '*')) as' ∧
      (pat.head? = some '*' ↔ 0 < k) := by
  induction pat with
  | nil => intro as h; exact ⟨0, as, rfl, h, by simp⟩
  | cons c s ih =>
    intro as h
    by_cases hc : c = '*'
    · subst hc
      cases h with
      | star _ as h =>
        obtain ⟨k, as', rfl, h', -⟩ := ih h
        exact ⟨k + 1, as', rfl, by simpa [List.dropWhile] using h', by simp⟩
      | plain _ _ _ _ h => exact absurd rfl h
    · exact ⟨0, as, rfl, by rw [List.dropWhile_cons_of_neg (by simpa using hc)]; exact h, by simp [hc]⟩

theorem matches_stars (icase : Bool) (as : List Atom) (m : Nat) (s : List Char) :
    Matches loc icase (List.replicate m .star ++ as) s ↔
      ∃ u v, s = u ++ v ∧ (m = 0 → u = []) ∧ Matches loc icase as v := by
  induction m generalizing s with
  | zero =>
    simp only [List.replicate_zero, List.nil_append]
    constructor
    · intro h; exact ⟨[], s, rfl, fun _ => rfl, h⟩
    · rintro ⟨u, v, rfl, hu, h⟩
      rw [hu trivial]; exact h
  | succ m ih =>
    rw [List.replicate_succ, List.cons_append]
    constructor
    · intro h
      rcases matches_cons loc h with ⟨-, u, v, rfl, h1⟩ | ⟨c, s', -, h1, -⟩
      · obtain ⟨u', v', rfl, -, h2⟩ := (ih v).mp h1
        exact ⟨u ++ u', v', by simp, by simp, h2⟩
      · exact absurd h1 (by simp [Accepts])
    · rintro ⟨u, v, rfl, -, h⟩
      refine Matches.star _ u v ((ih v).mpr ⟨[], v, rfl, fun _ => rfl, h⟩)

theorem matches_literal (lit : List Char) (as : List Atom) (s : List Char) :
    Matches loc false (lit.map Atom.lit ++ as) s ↔ ∃ v, s = lit ++ v ∧ Matches loc false as v := by
  induction lit generalizing s with
  | nil => simp
  | cons c lit ih =>
    rw [List.map_cons, List.cons_append]
    constructor
    · intro h
      rcases matches_cons loc h with ⟨h0, -⟩ | ⟨d, s', rfl, h1, h2⟩
      · cases h0
      · have h1 : c = d := by simpa [Accepts] using h1
        subst h1
        obtain ⟨v, rfl, h3⟩ := (ih s').mp h2
        exact ⟨v, rfl, h3⟩
    · rintro ⟨v, rfl, h⟩
      exact Matches.one _ c _ _ (by simp [Accepts]) ((ih _).mpr ⟨v, rfl, h⟩)

/-- The literal occurs at a position. -/
def Occ (lit s : List Char) (p : Nat) : Prop := p ≤ s.length ∧ lit <+: s.drop p

theorem occ_le {lit s : List Char} {p : Nat} (h : Occ lit s p) : p + lit.length ≤ s.length := by
  have := h.2.length_le
  have := h.1
  simp at *
  omega

/-- What a literal pattern matches, by position. -/
theorem literal_matchesAt {as : List Atom} {k m : Nat} {lit : List Char}
    (ha : as = List.replicate k .star ++ (lit.map Atom.lit ++ List.replicate m .star))
    (s : List Char) (i j : Nat) :
    MatchesAt loc false as s i j ↔
      ∃ p, Occ lit s p ∧ i ≤ p ∧ p + lit.length ≤ j ∧ j ≤ s.length ∧ (k = 0 → p = i) ∧
        (m = 0 → j = p + lit.length) := by
  have key : ∀ w : List Char, Matches loc false (List.replicate m .star) w ↔ (m = 0 → w = []) := by
    intro w
    have := matches_stars loc false [] m w
    rw [List.append_nil] at this
    rw [this]
    constructor
    · rintro ⟨u, v, rfl, hu, hv⟩ hm
      cases hv
      simp [hu hm]
    · intro h
      exact ⟨w, [], by simp, h, .nil⟩
  unfold MatchesAt
  rw [ha, matches_stars]
  constructor
  · rintro ⟨h1, h2, u, w, he, hu, hw⟩
    rw [matches_literal] at hw
    obtain ⟨v, rfl, hv⟩ := hw
    rw [key] at hv
    have hl := congrArg List.length he
    simp only [List.length_drop, List.length_take, List.length_append] at hl
    have hmin : min j s.length = j := by omega
    rw [hmin] at hl
    refine ⟨i + u.length, ⟨by omega, ?_⟩, by omega, by omega, h2, ?_, ?_⟩
    · have h3 : (s.take j).drop i <+: s.drop i := by
        rw [List.drop_take]; exact List.take_prefix _ _
      rw [he] at h3
      obtain ⟨x, hx⟩ := h3
      rw [← List.drop_drop, ← hx]
      exact ⟨v ++ x, by simp⟩
    · intro hk; simp [hu hk]
    · intro hm
      have := hv hm
      subst this
      simp at hl
      omega
  · rintro ⟨p, ho, h1, h2, h3, h4, h5⟩
    refine ⟨by omega, h3, ((s.take j).drop i).take (p - i), ((s.take j).drop i).drop (p - i),
      (List.take_append_drop _ _).symm, ?_, ?_⟩
    · intro hk; rw [h4 hk]; simp
    · rw [matches_literal]
      have e : ((s.take j).drop i).drop (p - i) = (s.drop p).take (j - p) := by
        rw [List.drop_drop, show i + (p - i) = p from by omega, List.drop_take]
      rw [e]
      obtain ⟨x, hx⟩ := ho.2
      refine ⟨x.take (j - p - lit.length), ?_, ?_⟩
      · rw [← hx, List.take_append, List.take_of_length_le (by omega)]
      · rw [key]
        intro hm
        have := h5 hm
        rw [show j - p - lit.length = 0 from by omega]
        simp

theorem wcsstr_occ {lit s a b : List Char} (h : wcsstr lit s = some (a, b)) :
    Occ lit s a.length ∧ ∀ p, Occ lit s p → a.length ≤ p := by
  obtain ⟨h1, h2⟩ := wcsstr_some h
  refine ⟨⟨by rw [h1]; simp, by rw [h1, List.append_assoc, List.drop_left]; exact List.prefix_append _ _⟩, ?_⟩
  intro p ⟨hp, x, hx⟩
  have := h2 (s.take p) x (by rw [List.append_assoc, hx, List.take_append_drop])
  simp at this
  omega

theorem wcsstr_no_occ {lit s : List Char} (h : wcsstr lit s = none) : ∀ p, ¬ Occ lit s p := by
  intro p ⟨hp, x, hx⟩
  exact wcsstr_none h (s.take p) x (by rw [List.append_assoc, hx, List.take_append_drop])

theorem occ_drop {lit s : List Char} {p q : Nat} (hq : q ≤ s.length) :
    Occ lit (s.drop q) p ↔ Occ lit s (q + p) := by
  unfold Occ
  rw [List.drop_drop, List.length_drop]
  constructor
  · rintro ⟨h1, h2⟩; exact ⟨by omega, h2⟩
  · rintro ⟨h1, h2⟩; exact ⟨by omega, h2⟩

theorem lastWcsstrLoop_occ {lit : List Char} (hl : lit ≠ []) : ∀ (n : Nat) (s : List Char),
    s.length < n →
    match lastWcsstrLoop lit n s with
    | none => ∀ p, ¬ Occ lit s p
    | some i => Occ lit s i ∧ ∀ p, Occ lit s p → p ≤ i := by
  intro n
  induction n with
  | zero => intro s h; omega
  | succ n ih =>
    intro s h
    rw [lastWcsstrLoop]
    cases hw : wcsstr lit s with
    | none => exact wcsstr_no_occ hw
    | some p =>
      obtain ⟨a, b⟩ := p
      obtain ⟨h1, h2⟩ := wcsstr_occ hw
      have h3 := occ_le h1
      have h4 : 0 < lit.length := List.length_pos_iff.mpr hl
      have := ih (s.drop (a.length + 1)) (by simp; omega)
      simp only
      cases hr : lastWcsstrLoop lit n (s.drop (a.length + 1)) with
      | none =>
        rw [hr] at this
        simp only at this ⊢
        refine ⟨h1, ?_⟩
        intro p hp
        apply Classical.byContradiction
        intro hn
        refine this (p - (a.length + 1)) ?_
        rw [occ_drop (by omega), show a.length + 1 + (p - (a.length + 1)) = p from by omega]
        exact hp
      | some k =>
        rw [hr] at this
        simp only at this ⊢
        rw [occ_drop (by omega)] at this
        refine ⟨this.1, ?_⟩
        intro p hp
        by_cases hq : a.length + 1 ≤ p
        · have := this.2 (p - (a.length + 1)) (by
            rw [occ_drop (by omega), show a.length + 1 + (p - (a.length + 1)) = p from by omega]
            exact hp)
          omega
        · omega

theorem lastWcsstr_occ {lit s : List Char} {i : Nat} (h : lastWcsstr lit s = some i) :
    Occ lit s i ∧ ∀ p, Occ lit s p → p ≤ i := by
  unfold lastWcsstr at h
  split at h
  · rename_i hl
    subst hl
    cases h
    exact ⟨⟨Nat.le_refl _, List.nil_prefix⟩, fun p hp => hp.1⟩
  · rename_i hl
    have := lastWcsstrLoop_occ hl (s.length + 1) s (by omega)
    rw [h] at this
    exact this

theorem lastWcsstr_no_occ {lit s : List Char} (h : lastWcsstr lit s = none) :
    ∀ p, ¬ Occ lit s p := by
  unfold lastWcsstr at h
  split at h
  · cases h
  · rename_i hl
    have := lastWcsstrLoop_occ hl (s.length + 1) s (by omega)
    rw [h] at this
    exact this

theorem occ_zero {lit s : List Char} : lit.isPrefixOf s = true ↔ Occ lit s 0 := by
  rw [List.isPrefixOf_iff_prefix]
  simp [Occ]

theorem occ_end {lit s : List Char} (h : lit.length ≤ s.length) :
    s.drop (s.length - lit.length) = lit ↔ Occ lit s (s.length - lit.length) := by
  constructor
  · intro he; exact ⟨by omega, by rw [he]; exact List.prefix_refl _⟩
  · rintro ⟨-, hp⟩
    exact (hp.eq_of_length (by simp; omega)).symm

end Yash.Fnmatch
