import Verif.Shopt.Spec
/-! # Options: searching for names -/
set_option autoImplicit false

namespace Yash.Shopt

open Spec

theorem normalize_eq (W : World) (s : Str) : normalize W s = plainName W s := by
  unfold normalize plainName
  induction s with
  | nil => rfl
  | cons c s ih =>
    simp only [List.filter_cons, List.filterMap_cons]
    cases W.alnum c <;> simp [ih]

theorem afterPrefix_iff (s p r : Str) : afterPrefix s p = some r ↔ s = p ++ r := by
  induction p generalizing s with
  | nil => cases s <;> simp [afterPrefix, eq_comm]
  | cons d p ih =>
    cases s with
    | nil => simp [afterPrefix]
    | cons c s =>
      simp only [afterPrefix, List.cons_append, List.cons.injEq]
      split
      · rw [ih]; simp [*]
      · simp [*]

theorem afterPrefix_isSome (s p : Str) : (afterPrefix s p).isSome = p.isPrefixOf s := by
  rw [Bool.eq_iff_iff, List.isPrefixOf_iff_prefix, Option.isSome_iff_exists]
  constructor
  · rintro ⟨r, hr⟩
    exact ⟨r, ((afterPrefix_iff s p r).1 hr).symm⟩
  · rintro ⟨r, hr⟩
    exact ⟨r, (afterPrefix_iff s p r).2 hr.symm⟩

/-- With an exact match, only that option is found. -/
theorem searchShell_exact {name : Str} {o : Opt} : ∀ (os found : List Opt), o ∈ os → o.name = name → (∀ p ∈ os, p.name = name → p = o) → searchShell name os found = [o]
  | [], _, h, _, _ => by cases h
  | p :: os, found, h, hn, hu => by
    simp only [searchShell]
    split
    · rename_i hp
      rw [afterPrefix_iff, List.append_nil] at hp
      rw [hu p (by simp) hp]
    · rename_i hp
      refine searchShell_exact os _ ?_ hn fun q hq => hu q (by simp [hq])
      rcases List.mem_cons.1 h with rfl | h
      · rw [afterPrefix_iff, hn] at hp
        have := congrArg List.length hp
        rw [List.length_append] at this
        rename_i r hr
        have : r = [] := List.length_eq_zero_iff.1 (by omega)
        exact absurd this hr
      · exact h
    · rename_i hp
      refine searchShell_exact os _ ?_ hn fun q hq => hu q (by simp [hq])
      rcases List.mem_cons.1 h with rfl | h
      · have := (afterPrefix_iff o.name name []).2 (by simp [hn])
        rw [hp] at this
        cases this
      · exact h

/-- Otherwise all options are found whose names begin with the text. -/
theorem searchShell_prefix {name : Str} : ∀ (os found : List Opt), (∀ p ∈ os, p.name ≠ name) →
    searchShell name os found = found ++ os.filter fun p => name.isPrefixOf p.name
  | [], found, _ => by simp [searchShell]
  | p :: os, found, h => by
    have ih := fun f => searchShell_prefix os f fun q hq => h q (by simp [hq])
    simp only [searchShell, List.filter_cons, ← afterPrefix_isSome]
    split
    · rename_i hp
      rw [afterPrefix_iff, List.append_nil] at hp
      exact absurd hp (h p (by simp))
    · rename_i hp
      rw [ih, hp]
      simp [afterPrefix_isSome]
    · rename_i hp
      rw [ih, hp]
      simp [afterPrefix_isSome]

/-! ## The table -/

theorem names_unique : ∀ o ∈ shellOptions, ∀ p ∈ shellOptions, p.name = o.name → p = o := by decide +kernel

theorem vars_unique : ∀ o ∈ shellOptions, ∀ p ∈ shellOptions, p.var = o.var → p = o := by decide +kernel

theorem no_prefix : ∀ o ∈ shellOptions, ∀ p ∈ shellOptions, (('n' :: 'o' :: o.name).isPrefixOf p.name) = false := by decide +kernel

theorem no_negated : ∀ o ∈ shellOptions, ∀ p ∈ shellOptions, (o.name.take 2 == ['n', 'o'] && (o.name.drop 2).isPrefixOf p.name) = false := by decide +kernel

theorem table_nodup : shellOptions.Nodup := by decide +kernel

theorem prefix_self (s : Str) : s.isPrefixOf s = true := List.isPrefixOf_iff_prefix.2 (List.prefix_refl s)

/-! ## What a name stands for -/

theorem full_unique {n : Str} {o p : Opt} {b c : Bool} (h1 : Full n o b) (h2 : Full n p c) : p = o ∧ c = b := by
  obtain ⟨h1, rfl⟩ := h1
  obtain ⟨h2, h3⟩ := h2
  cases b <;> cases c <;> simp only [if_true, Bool.false_eq_true, if_false, List.nil_append, List.cons_append] at h3
  · exact ⟨names_unique o h1 p h2 h3.symm, rfl⟩
  · have := no_prefix p h2 o h1
    rw [← h3, prefix_self] at this
    cases this
  · have := no_prefix o h1 p h2
    rw [h3, prefix_self] at this
    cases this
  · simp only [List.cons.injEq, true_and] at h3
    exact ⟨names_unique o h1 p h2 h3.symm, rfl⟩

/-- The options found without and with `no`. -/
def positives (n : Str) : List Opt := shellOptions.filter fun p => n.isPrefixOf p.name

def negatives (n : Str) : List Opt :=
  match afterPrefix n ['n', 'o'] with
  | some m => shellOptions.filter fun p => m.isPrefixOf p.name
  | none => []

theorem mem_positives {n : Str} {o : Opt} : o ∈ positives n ↔ Abbreviates n o false := by
  simp only [positives, List.mem_filter, List.isPrefixOf_iff_prefix, Abbreviates, Bool.false_eq_true, if_false, List.nil_append]
  refine and_congr_right fun _ => ?_
  constructor
  · rintro ⟨r, hr⟩
    exact ⟨n, r, rfl, hr.symm⟩
  · rintro ⟨m, r, rfl, hr⟩
    exact ⟨r, hr.symm⟩

theorem mem_negatives {n : Str} {o : Opt} : o ∈ negatives n ↔ Abbreviates n o true := by
  simp only [negatives, Abbreviates, if_true]
  cases h : afterPrefix n ['n', 'o'] with
  | none =>
    simp only [List.not_mem_nil, false_iff, not_and, not_exists]
    rintro _ m r hm
    rw [(afterPrefix_iff _ _ m).2 hm] at h
    cases h
  | some m =>
    rw [afterPrefix_iff] at h
    simp only [List.mem_filter, List.isPrefixOf_iff_prefix]
    refine and_congr_right fun _ => ?_
    constructor
    · rintro ⟨r, hr⟩
      exact ⟨m, r, h, hr.symm⟩
    · rintro ⟨m', r, h', hr⟩
      rw [h] at h'
      obtain rfl : m = m' := by simpa using h'
      exact ⟨r, hr.symm⟩

theorem collect_full {W : World} {name : Str} {o : Opt} {neg : Bool} (h : Full (plainName W name) o neg) : collect W name = ([o], if neg then 0 else 1) := by
  obtain ⟨ho, hn⟩ := h
  unfold collect
  simp only [normalize_eq]
  cases neg with
  | false =>
    simp only [Bool.false_eq_true, if_false, List.nil_append] at hn
    have h1 := searchShell_exact shellOptions [] ho hn.symm fun p hp h => names_unique o ho p hp (by rw [h, hn])
    rw [h1]
    split
    · rename_i m hm
      rw [afterPrefix_iff, hn] at hm
      have h2 : ∀ p ∈ shellOptions, m.isPrefixOf p.name = false := by
        intro p hp
        have := no_negated o ho p hp
        rw [hm] at this
        simpa using this
      rw [searchShell_prefix _ _ fun p hp h => by
        have := h2 p hp
        rw [h, prefix_self] at this
        cases this]
      rw [List.filter_eq_nil_iff.2 fun p hp => by rw [h2 p hp]; simp]
      rfl
    · rfl
  | true =>
    simp only [if_true] at hn
    have h1 : searchShell (plainName W name) shellOptions [] = [] := by
      have h2 : ∀ p ∈ shellOptions, (plainName W name).isPrefixOf p.name = false := fun p hp => by
        rw [hn]
        exact no_prefix o ho p hp
      rw [searchShell_prefix _ _ fun p hp h => by
        have := h2 p hp
        rw [h, prefix_self] at this
        cases this]
      rw [List.filter_eq_nil_iff.2 fun p hp => by rw [h2 p hp]; simp]
      rfl
    rw [h1, (afterPrefix_iff _ _ o.name).2 hn]
    simp only [List.length_nil]
    rw [searchShell_exact shellOptions [] ho rfl fun p hp h => names_unique o ho p hp h]
    rfl

theorem collect_abbr {W : World} {name : Str} (h : ∀ p b, ¬Full (plainName W name) p b) :
    collect W name = (positives (plainName W name) ++ negatives (plainName W name), (positives (plainName W name)).length) := by
  unfold collect
  simp only [normalize_eq]
  rw [searchShell_prefix shellOptions [] fun p hp hn => h p false ⟨hp, by simp [hn]⟩]
  simp only [List.nil_append, negatives, positives]
  split
  · rename_i m hm
    rw [searchShell_prefix shellOptions _ fun p hp hn => h p true ⟨hp, by
      rw [afterPrefix_iff] at hm
      rw [hm, hn]; simp⟩]
    simp [hm]
  · rename_i hm
    simp [hm]

/-- What is found is one option if and only if the name stands for it. -/
theorem collect_iff {W : World} {name : Str} {o : Opt} {neg : Bool} : Denotes W name o neg ↔ collect W name = ([o], if neg then 0 else 1) := by
  by_cases hf : ∃ p b, Full (plainName W name) p b
  · obtain ⟨p, b, hf⟩ := hf
    rw [collect_full hf]
    constructor
    · rintro (h | ⟨h, _⟩)
      · obtain ⟨rfl, rfl⟩ := full_unique h hf
        rfl
      · exact absurd hf (h p b)
    · intro h
      simp only [Prod.mk.injEq, List.cons.injEq, and_true] at h
      obtain ⟨rfl, h⟩ := h
      have : b = neg := by revert h; cases b <;> cases neg <;> decide
      exact .inl (this ▸ hf)
  · have hf' : ∀ p b, ¬Full (plainName W name) p b := fun p b h => hf ⟨p, b, h⟩
    rw [collect_abbr hf']
    have hnp : (positives (plainName W name)).Nodup := table_nodup.filter _
    have hnn : (negatives (plainName W name)).Nodup := by
      unfold negatives
      split
      · exact table_nodup.filter _
      · exact .nil
    constructor
    · rintro (h | ⟨_, h1, h2⟩)
      · exact absurd h (hf' _ _)
      · have hp : ∀ q, q ∈ positives (plainName W name) → q = o ∧ neg = false := fun q hq => by
          obtain ⟨rfl, rfl⟩ := h2 q false (mem_positives.1 hq)
          exact ⟨rfl, rfl⟩
        have hn : ∀ q, q ∈ negatives (plainName W name) → q = o ∧ neg = true := fun q hq => by
          obtain ⟨rfl, rfl⟩ := h2 q true (mem_negatives.1 hq)
          exact ⟨rfl, rfl⟩
        have single : ∀ l : List Opt, l.Nodup → o ∈ l → (∀ q ∈ l, q = o) → l = [o] := by
          intro l hl ho hq
          match l, hl, ho, hq with
          | [], _, ho, _ => cases ho
          | [a], _, _, hq => rw [hq a (by simp)]
          | a :: b :: l, hl, _, hq =>
            rw [hq a (by simp), hq b (by simp)] at hl
            simp at hl
        cases neg with
        | false =>
          have e1 := single _ hnp (mem_positives.2 h1) fun q hq => (hp q hq).1
          have e2 : negatives (plainName W name) = [] := List.eq_nil_iff_forall_not_mem.2 fun q hq => by cases (hn q hq).2
          rw [e1, e2]; rfl
        | true =>
          have e1 := single _ hnn (mem_negatives.2 h1) fun q hq => (hn q hq).1
          have e2 : positives (plainName W name) = [] := List.eq_nil_iff_forall_not_mem.2 fun q hq => by cases (hp q hq).2
          rw [e1, e2]; rfl
    · intro h
      simp only [Prod.mk.injEq] at h
      obtain ⟨h1, h2⟩ := h
      refine .inr ⟨hf', ?_⟩
      cases neg with
      | false =>
        simp only [Bool.false_eq_true, if_false] at h2
        obtain ⟨e1, e2⟩ : positives (plainName W name) = [o] ∧ negatives (plainName W name) = [] := by
          match hp : positives (plainName W name), h2 with
          | [a], _ => rw [hp] at h1; simp at h1; exact ⟨by rw [h1.1], h1.2⟩
        refine ⟨mem_positives.1 (by rw [e1]; simp), fun p b h => ?_⟩
        cases b with
        | false =>
          have := mem_positives.2 h
          rw [e1] at this
          exact ⟨by simpa using this, rfl⟩
        | true =>
          have := mem_negatives.2 h
          rw [e2] at this
          cases this
      | true =>
        simp only [if_true] at h2
        have e1 := List.length_eq_zero_iff.1 h2
        rw [e1, List.nil_append] at h1
        refine ⟨mem_negatives.1 (by rw [h1]; simp), fun p b h => ?_⟩
        cases b with
        | true =>
          have := mem_negatives.2 h
          rw [h1] at this
          exact ⟨by simpa using this, rfl⟩
        | false =>
          have := mem_positives.2 h
          rw [e1] at this
          cases this

/-- In any case, inverted options come after the others. -/
theorem collect_index (W : World) (name : Str) : (collect W name).2 ≤ (collect W name).1.length := by
  by_cases hf : ∃ p b, Full (plainName W name) p b
  · obtain ⟨p, b, hf⟩ := hf
    rw [collect_full hf]
    cases b <;> simp
  · rw [collect_abbr fun p b h => hf ⟨p, b, h⟩]
    simp

end Yash.Shopt
