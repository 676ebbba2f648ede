import Verif.Fnmatch.Search
/-!
# The literal fast path finds what the regular expression finds
-/
set_option autoImplicit false

namespace Yash.Fnmatch

open Spec (Tok Atom Items Bracket Reads isKind unquoted Plausible PlausiblePattern Matches
  MatchesAt Accepts Goal Finds)

/-- The flags for `xfnm_compile` that ask for a part of the string (xfnmatch.c:177-187). -/
def goalFlags (g : Goal) (period casefold : Bool) : Flags :=
  match g with
  | .whole => { headonly := true, tailonly := true, period, casefold }
  | .shortestPrefix => { headonly := true, shortest := true, period, casefold }
  | .longestPrefix => { headonly := true, period, casefold }
  | .shortestSuffix => { tailonly := true, shortest := true, period, casefold }
  | .longestSuffix => { tailonly := true, period, casefold }
  | .leftmost => { period, casefold }

variable (loc : Locale)

theorem tryCompileLiteral_reads {pat : List Char} {f f' : Flags} {lit : List Char} {as : List Atom}
    (hr : Reads pat as) (h : tryCompileLiteral pat f = some (f', lit)) :
    ∃ k m ts, as = List.replicate k .star ++ (lit.map Atom.lit ++ List.replicate m .star) ∧
      (ts = true ↔ 0 < m) ∧
      f' = (let hs := decide (0 < k)
        let f1 := if hs then { f with headonly := false, headstar := true } else f
        let f2 := if ts then { f1 with tailonly := false, tailstar := true } else f1
        if f.shortest then
          if f.headonly then { f2 with tailstar := false } else { f2 with headstar := false }
        else f2) := by
  unfold tryCompileLiteral at h
  dsimp only at h
  split at h
  · cases h
  · rename_i l ts hl
    simp only [Option.some.injEq, Prod.mk.injEq] at h
    obtain ⟨h1, rfl⟩ := h
    obtain ⟨k, as', rfl, hr', hk⟩ := reads_dropStars hr
    obtain ⟨m, rfl, hm⟩ := literalText_reads hr' hl
    refine ⟨k, m, ts, rfl, hm, ?_⟩
    rw [← h1]
    have : (pat.head? == some '*') = decide (0 < k) := by
      rw [Bool.eq_iff_iff]
      simp [hk]
    rw [this]

/-- Positions instead of strings. -/
theorem finds_of_positions {g : Goal} {as : List Atom} {k m : Nat} {lit s : List Char}
    (ha : as = List.replicate k .star ++ (lit.map Atom.lit ++ List.replicate m .star))
    {r : Option (Nat × Nat)}
    (h : match r with
      | none => ∀ p, Occ lit s p → ∀ i j, g.Eligible s i j →
          ¬ (i ≤ p ∧ p + lit.length ≤ j ∧ j ≤ s.length ∧ (k = 0 → p = i) ∧
            (m = 0 → j = p + lit.length))
      | some (i, j) => g.Eligible s i j ∧
        (∃ p, Occ lit s p ∧ i ≤ p ∧ p + lit.length ≤ j ∧ j ≤ s.length ∧ (k = 0 → p = i) ∧
          (m = 0 → j = p + lit.length)) ∧
        ∀ p, Occ lit s p → ∀ i' j', g.Eligible s i' j' →
          (i' ≤ p ∧ p + lit.length ≤ j' ∧ j' ≤ s.length ∧ (k = 0 → p = i') ∧
            (m = 0 → j' = p + lit.length)) → g.Better i j i' j') :
    Finds loc false g as s r := by
  cases r with
  | none =>
    intro i j he hm
    rw [literal_matchesAt loc ha] at hm
    obtain ⟨p, hp, hm⟩ := hm
    exact h p hp i j he hm
  | some q =>
    obtain ⟨i, j⟩ := q
    obtain ⟨h1, h2, h3⟩ := h
    refine ⟨h1, (literal_matchesAt loc ha s i j).mpr h2, ?_⟩
    intro i' j' he hm
    rw [literal_matchesAt loc ha] at hm
    obtain ⟨p, hp, hm⟩ := hm
    exact h3 p hp i' j' he hm

/-- The literal at the beginning. -/
theorem wmatchLiteral_head {f : Flags} {lit s : List Char} (h : f.headonly = true) :
    (wmatchLiteral f lit s = none ∧ (Occ lit s 0 → f.tailonly = true ∧ lit.length ≠ s.length)) ∨
    (Occ lit s 0 ∧ (f.tailonly = true → lit.length = s.length) ∧
      wmatchLiteral f lit s =
        some (0, if !f.shortest && f.tailstar then s.length else lit.length)) := by
  unfold wmatchLiteral
  rw [if_pos h]
  split
  · rename_i ho
    rw [occ_zero] at ho
    have hle := occ_le ho
    dsimp only
    rw [show lit.length + (s.drop lit.length).length = s.length from by simp; omega]
    by_cases ht : (f.tailonly && decide (s.drop lit.length ≠ [])) = true
    · left
      rw [if_pos ht]
      refine ⟨rfl, fun _ => ?_⟩
      simp at ht
      exact ⟨ht.1, by omega⟩
    · right
      rw [if_neg ht]
      refine ⟨ho, ?_, rfl⟩
      intro h2
      simp only [h2, Bool.true_and, decide_eq_true_eq, Decidable.not_not] at ht
      have := congrArg List.length ht
      simp only [List.length_drop, List.length_nil] at this
      omega
  · rename_i ho
    rw [occ_zero] at ho
    exact Or.inl ⟨rfl, fun h => absurd h ho⟩

/-- The literal at the end. -/
theorem wmatchLiteral_tail {f : Flags} {lit s : List Char} (h : f.headonly = false)
    (ht : f.tailonly = true) :
    (wmatchLiteral f lit s = none ∧ ∀ p, Occ lit s p → p + lit.length ≠ s.length) ∨
    (∃ p, Occ lit s p ∧ p + lit.length = s.length ∧
      wmatchLiteral f lit s = some (if !f.shortest && f.headstar then 0 else p, s.length)) := by
  unfold wmatchLiteral
  rw [if_neg (by simp [h]), if_pos ht]
  split
  · left
    refine ⟨rfl, ?_⟩
    intro p hp
    have := occ_le hp
    omega
  · rename_i hl
    by_cases he : s.drop (s.length - lit.length) = lit
    · right
      refine ⟨s.length - lit.length, (occ_end (by omega)).mp he, by omega, ?_⟩
      rw [if_neg (by simpa using he)]
    · left
      rw [if_pos (by simpa using he)]
      refine ⟨rfl, ?_⟩
      intro p hp hpe
      have : p = s.length - lit.length := by omega
      rw [this] at hp
      exact he ((occ_end (by omega)).mpr hp)

/-- The first or the last occurrence of the literal. -/
theorem wmatchLiteral_mid {f : Flags} {lit s : List Char} (h : f.headonly = false)
    (ht : f.tailonly = false) :
    (wmatchLiteral f lit s = none ∧ ∀ p, ¬ Occ lit s p) ∨
    (∃ p, Occ lit s p ∧
      (if (!f.shortest && f.headstar && !f.tailstar) || (f.shortest && !f.headstar && f.tailstar)
        then ∀ q, Occ lit s q → q ≤ p else ∀ q, Occ lit s q → p ≤ q) ∧
      wmatchLiteral f lit s = some (if f.headstar then 0 else p,
        if f.tailstar then s.length else p + lit.length)) := by
  unfold wmatchLiteral
  rw [if_neg (by simp [h]), if_neg (by simp [ht])]
  dsimp only
  generalize ((!f.shortest && f.headstar && !f.tailstar) ||
    (f.shortest && !f.headstar && f.tailstar)) = b
  cases b with
  | true =>
    simp only [if_true]
    cases hw : lastWcsstr lit s with
    | none => exact Or.inl ⟨rfl, lastWcsstr_no_occ hw⟩
    | some i => exact Or.inr ⟨i, (lastWcsstr_occ hw).1, (lastWcsstr_occ hw).2, rfl⟩
  | false =>
    simp only [Bool.false_eq_true, if_false]
    cases hw : wcsstr lit s with
    | none => exact Or.inl ⟨rfl, wcsstr_no_occ hw⟩
    | some q => exact Or.inr ⟨q.1.length, (wcsstr_occ hw).1, (wcsstr_occ hw).2, rfl⟩

theorem literal_finds {pat : List Char} {as : List Atom} (hr : Reads pat as) {g : Goal}
    {period : Bool} {f : Flags} {lit : List Char}
    (h : tryCompileLiteral pat (goalFlags g period false) = some (f, lit)) (s : List Char) :
    (g ≠ .whole → Finds loc false g as s (wmatchLiteral f lit s)) ∧
    (g = .whole → ((wmatchLiteral f lit s).isSome = true ↔ Matches loc false as s)) := by
  obtain ⟨k, m, ts, ha, hts, hf⟩ := tryCompileLiteral_reads hr h
  have hz : ∀ {p}, Occ lit s p → p + lit.length ≤ s.length := fun h => occ_le h
  constructor
  · intro hg
    apply finds_of_positions loc ha
    by_cases hk : 0 < k <;> by_cases hm : 0 < m <;>
      (have ht := hts; simp only [hm, iff_true, iff_false, Bool.not_eq_true] at ht; subst ht) <;>
      cases g <;> simp [goalFlags, hk] at hf <;> try (exact absurd rfl hg)
    all_goals
      first
      | (rcases wmatchLiteral_head (lit := lit) (s := s) (f := f) (by rw [hf]) with
          ⟨h1, h2⟩ | ⟨h1, h2, h3⟩
         · rw [h1]
           intro p hp i j he hm'
           simp only [hf] at h2
           simp only [Goal.Eligible] at he
           have hp0 : p = 0 := by omega
           rw [hp0] at hp
           exact absurd (h2 hp) (by simp)
         · rw [h3, hf]
           have := hz h1
           simp only [Bool.not_false, Bool.not_true, Bool.true_and, Bool.false_and,
             Bool.false_eq_true, if_false, if_true]
           refine ⟨by simp [Goal.Eligible], ⟨0, h1, by omega⟩, ?_⟩
           intro p hp i j he hm'
           simp only [Goal.Eligible] at he
           simp only [Goal.Better]
           have := hz hp
           omega)
      | (rcases wmatchLiteral_tail (lit := lit) (s := s) (f := f) (by rw [hf]) (by rw [hf]) with
          ⟨h1, h2⟩ | ⟨p, h1, h2, h3⟩
         · rw [h1]
           intro p hp i j he hm'
           simp only [Goal.Eligible] at he
           have := h2 p hp
           omega
         · rw [h3, hf]
           simp only [Bool.not_false, Bool.not_true, Bool.true_and, Bool.false_and,
             Bool.false_eq_true, if_false, if_true]
           refine ⟨by simp [Goal.Eligible], ⟨p, h1, by omega⟩, ?_⟩
           intro p' hp i j he hm'
           simp only [Goal.Eligible] at he
           simp only [Goal.Better]
           have := hz hp
           omega)
      | (rcases wmatchLiteral_mid (lit := lit) (s := s) (f := f) (by rw [hf]) (by rw [hf]) with
          ⟨h1, h2⟩ | ⟨p, h1, h2, h3⟩
         · rw [h1]
           intro p hp
           exact absurd hp (h2 p)
         · rw [h3, hf]
           simp only [hf, Bool.not_false, Bool.not_true, Bool.true_and, Bool.false_and,
             Bool.false_eq_true, if_false, if_true, Bool.or_false, Bool.and_false, Bool.or_true,
             Bool.and_true, Bool.or_self] at h2 ⊢
           have := hz h1
           refine ⟨by simp [Goal.Eligible], ⟨p, h1, by omega⟩, ?_⟩
           intro p' hp i j he hm'
           simp only [Goal.Eligible] at he
           simp only [Goal.Better]
           have := hz hp
           have := h2 p' hp
           omega)
  · rintro rfl
    have e : Matches loc false as s ↔ MatchesAt loc false as s 0 s.length := by
      simp [MatchesAt]
    rw [e, literal_matchesAt loc ha]
    by_cases hk : 0 < k <;> by_cases hm : 0 < m <;>
      (have ht := hts; simp only [hm, iff_true, iff_false, Bool.not_eq_true] at ht; subst ht) <;>
      simp [goalFlags, hk] at hf
    · rcases wmatchLiteral_mid (lit := lit) (s := s) (f := f) (by rw [hf]) (by rw [hf]) with
        ⟨h1, h2⟩ | ⟨p, h1, h2, h3⟩
      · rw [h1]
        simp only [Option.isSome_none, Bool.false_eq_true, false_iff]
        rintro ⟨p, hp, -⟩
        exact h2 p hp
      · rw [h3]
        have := hz h1
        simp only [Option.isSome_some, true_iff]
        exact ⟨p, h1, by omega⟩
    · rcases wmatchLiteral_tail (lit := lit) (s := s) (f := f) (by rw [hf]) (by rw [hf]) with
        ⟨h1, h2⟩ | ⟨p, h1, h2, h3⟩
      · rw [h1]
        simp only [Option.isSome_none, Bool.false_eq_true, false_iff]
        rintro ⟨p, hp, hh⟩
        have := h2 p hp
        omega
      · rw [h3]
        simp only [Option.isSome_some, true_iff]
        exact ⟨p, h1, by omega⟩
    all_goals
      rcases wmatchLiteral_head (lit := lit) (s := s) (f := f) (by rw [hf]) with
        ⟨h1, h2⟩ | ⟨h1, h2, h3⟩
      · rw [h1]
        simp only [Option.isSome_none, Bool.false_eq_true, false_iff]
        rintro ⟨p, hp, hh⟩
        have hp0 : p = 0 := by omega
        rw [hp0] at hp
        obtain ⟨g1, g2⟩ := h2 hp
        first
        | omega
        | (rw [hf] at g1; cases g1)
      · rw [h3]
        have := hz h1
        simp only [Option.isSome_some, true_iff]
        simp only [hf] at h2
        exact ⟨0, h1, by simp at h2; omega⟩

end Yash.Fnmatch
