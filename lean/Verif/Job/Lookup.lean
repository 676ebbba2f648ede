import Verif.Job.Valid
/-!
# Job specifications
-/
set_option autoImplicit false

namespace Yash.Job

open Spec

/-! ## Numbers -/

theorem isDigit_iff (c : Char) : isDigit c = true ↔ ∃ d : Nat, digits[d]? = some c := by
  constructor
  · intro h
    simp only [isDigit, Bool.and_eq_true, decide_eq_true_eq] at h
    refine ⟨c.toNat - 48, ?_⟩
    have h1 : 48 ≤ c.toNat := h.1
    have h2 : c.toNat ≤ 57 := h.2
    have hc : c = Char.ofNat c.toNat := (Char.ofNat_toNat c).symm
    have : c.toNat = 48 ∨ c.toNat = 49 ∨ c.toNat = 50 ∨ c.toNat = 51 ∨ c.toNat = 52 ∨ c.toNat = 53 ∨ c.toNat = 54 ∨ c.toNat = 55 ∨ c.toNat = 56 ∨ c.toNat = 57 := by
      omega
    rcases this with h | h | h | h | h | h | h | h | h | h <;> (rw [h] at hc ⊢; rw [hc]; rfl)
  · rintro ⟨d, h⟩
    have : c ∈ digits := List.mem_iff_getElem?.2 ⟨d, h⟩
    simp only [digits, List.mem_cons, List.not_mem_nil, or_false] at this
    rcases this with rfl | rfl | rfl | rfl | rfl | rfl | rfl | rfl | rfl | rfl <;> rfl

theorem digit_value {c : Char} {d : Nat} (h : digits[d]? = some c) : c.toNat - 48 = d := by
  have hd : d < 10 := by
    have := (List.getElem?_eq_some_iff.1 h).1
    simpa [digits] using this
  have : d = 0 ∨ d = 1 ∨ d = 2 ∨ d = 3 ∨ d = 4 ∨ d = 5 ∨ d = 6 ∨ d = 7 ∨ d = 8 ∨ d = 9 := by omega
  rcases this with rfl | rfl | rfl | rfl | rfl | rfl | rfl | rfl | rfl | rfl <;> (cases h; rfl)

/-- The value of a text of digits. -/
def value (t : List Char) : Nat := t.foldl (fun n c => n * 10 + (c.toNat - 48)) 0

theorem value_snoc (t : List Char) (c : Char) : value (t ++ [c]) = value t * 10 + (c.toNat - 48) := by simp [value]

theorem numeral_iff (t : List Char) (n : Nat) : Numeral t n ↔ t ≠ [] ∧ t.all isDigit = true ∧ value t = n := by
  constructor
  · intro h
    induction h with
    | digit h => exact ⟨by simp, by simp [(isDigit_iff _).2 ⟨_, h⟩], by simp [value, digit_value h]⟩
    | more _ h ih =>
      refine ⟨by simp, ?_, ?_⟩
      · simp only [List.all_append, ih.2.1, List.all_cons, List.all_nil, (isDigit_iff _).2 ⟨_, h⟩, Bool.and_self]
      · rw [value_snoc, ih.2.2, digit_value h, Nat.mul_comm]
  · rintro ⟨h1, h2, rfl⟩
    have key : ∀ r : List Char, r ≠ [] → r.all isDigit = true → Numeral r.reverse (value r.reverse) := by
      intro r
      induction r with
      | nil => intro h; exact absurd rfl h
      | cons c r ih =>
        intro _ h2
        simp only [List.all_cons, Bool.and_eq_true] at h2
        obtain ⟨d, hd⟩ := (isDigit_iff c).1 h2.1
        rw [List.reverse_cons, value_snoc, digit_value hd]
        by_cases hr : r = []
        · subst hr
          simpa [value] using Numeral.digit hd
        · rw [Nat.mul_comm]
          exact Numeral.more (ih hr h2.2) hd
    have := key t.reverse (by simpa using h1) (by simpa using h2)
    simpa using this

theorem toNumber_iff (t : List Char) (n : Nat) (h : t ≠ []) : toNumber t = some n ↔ Numeral t n ∧ n < 2 ^ 64 := by
  rw [numeral_iff]
  simp only [toNumber]
  have hu : ulongMax = 18446744073709551615 := rfl
  by_cases ha : t.all isDigit = true
  · rw [if_pos ha]
    have : t.foldl (fun n c => n * 10 + (c.toNat - 48)) 0 = value t := rfl
    rw [this]
    by_cases hle : value t ≤ ulongMax
    · rw [if_pos hle]
      simp only [Option.some.injEq]
      constructor
      · rintro rfl
        exact ⟨⟨h, ha, rfl⟩, by omega⟩
      · exact fun h => h.1.2.2
    · rw [if_neg hle]
      simp only [reduceCtorEq, false_iff]
      rintro ⟨⟨_, _, rfl⟩, h⟩
      omega
  · rw [if_neg ha]
    simp [ha]

theorem numeral_head {t : List Char} {n : Nat} (h : Numeral t n) : t.head?.any isDigit = true := by
  obtain ⟨h1, h2, _⟩ := (numeral_iff t n).1 h
  cases t with
  | nil => exact absurd rfl h1
  | cons c t =>
    simp only [List.all_cons, Bool.and_eq_true] at h2
    simpa using h2.1

/-! ## Texts in names -/

theorem isPrefixOf_iff (t n : List Char) : t.isPrefixOf n = true ↔ Begins t n := by
  rw [List.isPrefixOf_iff_prefix]
  constructor
  · rintro ⟨b, h⟩; exact ⟨b, h.symm⟩
  · rintro ⟨b, h⟩; exact ⟨b, h.symm⟩

theorem contains_iff : ∀ (n t : List Char), contains n t = true ↔ Occurs t n
  | [], t => by
    simp only [contains, List.isEmpty_iff, Occurs]
    constructor
    · rintro rfl; exact ⟨[], [], rfl⟩
    · rintro ⟨a, b, h⟩
      have := congrArg List.length h
      simp only [List.length_nil, List.length_append] at this
      exact List.length_eq_zero_iff.1 (by omega)
  | c :: n, t => by
    simp only [contains, Bool.or_eq_true, isPrefixOf_iff, contains_iff n t]
    constructor
    · rintro (⟨b, h⟩ | ⟨a, b, h⟩)
      · exact ⟨[], b, by simpa using h⟩
      · exact ⟨c :: a, b, by simp [h]⟩
    · rintro ⟨a, b, h⟩
      cases a with
      | nil => exact .inl ⟨b, by simpa using h⟩
      | cons d a =>
        simp only [List.cons_append, List.cons.injEq] at h
        exact .inr ⟨a, b, h.2⟩

/-! ## The search -/

/-- The job of the number has a name that meets the condition. -/
def Hit (s : State) (m : List Char → Bool) (i : Nat) : Prop := ∃ j, jobAt s i = some j ∧ m j.name = true

theorem nameLoop_found {s : State} {m : List Char → Bool} : ∀ (l : List Nat) (n : Nat), n ≠ 0 →
    ((nameLoop s m l n = n ∧ ∀ i ∈ l, ¬Hit s m i) ∨ (nameLoop s m l n = s.jobs.length ∧ ∃ i ∈ l, Hit s m i))
  | [], n, _ => .inl ⟨rfl, fun i h => by cases h⟩
  | i :: l, n, hn => by
    simp only [nameLoop, getJob_eq]
    have ih := nameLoop_found (s := s) (m := m) l n hn
    split
    · rename_i j hj
      split
      · rename_i hm
        rw [if_pos (by simpa using hn)]
        exact .inr ⟨rfl, i, List.mem_cons_self .., j, hj, hm⟩
      · rename_i hm
        refine ih.imp (fun ⟨h1, h2⟩ => ⟨h1, ?_⟩) (fun ⟨h1, k, hk, h2⟩ => ⟨h1, k, List.mem_cons_of_mem _ hk, h2⟩)
        intro k hk
        rcases List.mem_cons.1 hk with rfl | hk
        · rintro ⟨j', hj', hm'⟩
          rw [hj] at hj'; cases hj'
          exact hm hm'
        · exact h2 k hk
    · rename_i hj
      refine ih.imp (fun ⟨h1, h2⟩ => ⟨h1, ?_⟩) (fun ⟨h1, k, hk, h2⟩ => ⟨h1, k, List.mem_cons_of_mem _ hk, h2⟩)
      intro k hk
      rcases List.mem_cons.1 hk with rfl | hk
      · rintro ⟨j', hj', hm'⟩
        rw [hj] at hj'; cases hj'
      · exact h2 k hk

theorem nameLoop_spec {s : State} {m : List Char → Bool} : ∀ (l : List Nat), l.Nodup → (∀ i ∈ l, i ≠ 0) →
    ((nameLoop s m l 0 = 0 ∧ ∀ i ∈ l, ¬Hit s m i) ∨
     (nameLoop s m l 0 ∈ l ∧ Hit s m (nameLoop s m l 0) ∧ ∀ i ∈ l, Hit s m i → i = nameLoop s m l 0) ∨
     (nameLoop s m l 0 = s.jobs.length ∧ ∃ i ∈ l, ∃ k ∈ l, i ≠ k ∧ Hit s m i ∧ Hit s m k))
  | [], _, _ => .inl ⟨rfl, fun i h => by cases h⟩
  | i :: l, hl, hz => by
    rw [List.nodup_cons] at hl
    have ih := nameLoop_spec (s := s) (m := m) l hl.2 fun k hk => hz k (List.mem_cons_of_mem _ hk)
    have skip : ¬Hit s m i → nameLoop s m (i :: l) 0 = nameLoop s m l 0 →
        ((nameLoop s m (i :: l) 0 = 0 ∧ ∀ k ∈ i :: l, ¬Hit s m k) ∨
         (nameLoop s m (i :: l) 0 ∈ i :: l ∧ Hit s m (nameLoop s m (i :: l) 0) ∧ ∀ k ∈ i :: l, Hit s m k → k = nameLoop s m (i :: l) 0) ∨
         (nameLoop s m (i :: l) 0 = s.jobs.length ∧ ∃ a ∈ i :: l, ∃ b ∈ i :: l, a ≠ b ∧ Hit s m a ∧ Hit s m b)) := fun hno he => by
      rw [he]
      have up : ∀ {k}, k ∈ i :: l → Hit s m k → k ∈ l := by
        intro k hk hh
        rcases List.mem_cons.1 hk with rfl | hk
        · exact absurd hh hno
        · exact hk
      rcases ih with ⟨h1, h2⟩ | ⟨h1, h2, h3⟩ | ⟨h1, a, ha, b, hb, hab, h2, h3⟩
      · exact Or.inl ⟨h1, fun k hk hh => h2 k (up hk hh) hh⟩
      · exact Or.inr (.inl ⟨List.mem_cons_of_mem _ h1, h2, fun k hk hh => h3 k (up hk hh) hh⟩)
      · exact Or.inr (.inr ⟨h1, a, List.mem_cons_of_mem _ ha, b, List.mem_cons_of_mem _ hb, hab, h2, h3⟩)
    cases hj : jobAt s i with
    | none =>
      refine skip ?_ ?_
      · rintro ⟨j, hj', _⟩
        rw [hj] at hj'; cases hj'
      · simp only [nameLoop, getJob_eq, hj]
    | some j =>
      by_cases hm : m j.name = true
      · have he : nameLoop s m (i :: l) 0 = nameLoop s m l i := by
          simp only [nameLoop, getJob_eq, hj, hm, if_true]
          rfl
        rw [he]
        have hi := hz i (List.mem_cons_self ..)
        rcases nameLoop_found (s := s) (m := m) l i hi with ⟨h1, h2⟩ | ⟨h1, k, hk, h2⟩
        · rw [h1]
          refine .inr (.inl ⟨List.mem_cons_self .., ⟨j, hj, hm⟩, fun k hk hh => ?_⟩)
          rcases List.mem_cons.1 hk with rfl | hk
          · rfl
          · exact absurd hh (h2 k hk)
        · refine .inr (.inr ⟨h1, i, List.mem_cons_self .., k, List.mem_cons_of_mem _ hk, ?_, ⟨j, hj, hm⟩, h2⟩)
          rintro rfl
          exact hl.1 hk
      · refine skip ?_ ?_
        · rintro ⟨j', hj', hm'⟩
          rw [hj] at hj'; cases hj'
          exact hm hm'
        · simp only [nameLoop, getJob_eq, hj, hm, Bool.false_eq_true, if_false]

/-- The search among all the jobs. -/
theorem search_spec {s : State} (hz : jobAt s 0 = none) (m : List Char → Bool) :
    ((nameLoop s m (List.range' 1 (s.jobs.length - 1)) 0 = 0 ∧ ∀ i, ¬Hit s m i) ∨
     (∃ n, n ≠ 0 ∧ n < s.jobs.length ∧ nameLoop s m (List.range' 1 (s.jobs.length - 1)) 0 = n ∧ Hit s m n ∧ ∀ i, Hit s m i → i = n) ∨
     (nameLoop s m (List.range' 1 (s.jobs.length - 1)) 0 = s.jobs.length ∧ ∃ i k, i ≠ k ∧ Hit s m i ∧ Hit s m k)) := by
  have mem : ∀ i, Hit s m i → i ∈ List.range' 1 (s.jobs.length - 1) := by
    rintro i ⟨j, hj, _⟩
    have := jobAt_lt hj
    have h0 : i ≠ 0 := by
      rintro rfl
      rw [hz] at hj; cases hj
    rw [List.mem_range']
    exact ⟨i - 1, by omega, by omega⟩
  have lt : ∀ i ∈ List.range' 1 (s.jobs.length - 1), i ≠ 0 := by
    intro i hi
    rw [List.mem_range'] at hi
    obtain ⟨k, _, rfl⟩ := hi
    omega
  rcases nameLoop_spec (s := s) (m := m) _ List.nodup_range' lt with ⟨h1, h2⟩ | ⟨h1, h2, h3⟩ | ⟨h1, a, _, b, _, h2⟩
  · exact .inl ⟨h1, fun i hi => h2 i (mem i hi) hi⟩
  · refine .inr (.inl ⟨_, lt _ h1, ?_, rfl, h2, fun i hi => h3 i (mem i hi) hi⟩)
    obtain ⟨j, hj, _⟩ := h2
    exact jobAt_lt hj
  · exact .inr (.inr ⟨h1, a, b, h2⟩)

/-- What the number found for a name means. -/
inductive Found (s : State) (R : Nat → Prop) : Nat → Prop
  /-- Nothing is meant. -/
  | nothing : (∀ i, Present s i → ¬R i) → Found s R 0
  /-- One job is meant. -/
  | one {n : Nat} {j : Job} : n ≠ 0 → jobAt s n = some j → R n → (∀ i, Present s i → R i → i = n) → Found s R n
  /-- More than one job is meant. -/
  | many {i k : Nat} : i ≠ k → Present s i → Present s k → R i → R k → Found s R s.jobs.length

theorem search_found {s : State} (hz : jobAt s 0 = none) (m : List Char → Bool) (R : Nat → Prop) (hR : ∀ i, Present s i → (R i ↔ Hit s m i)) :
    Found s R (nameLoop s m (List.range' 1 (s.jobs.length - 1)) 0) := by
  have hp : ∀ i, Hit s m i → Present s i := fun i ⟨j, hj, _⟩ => ⟨j, hj⟩
  rcases search_spec hz m with ⟨h1, h2⟩ | ⟨n, h0, hl, h1, h2, h3⟩ | ⟨h1, a, b, hab, ha, hb⟩
  · rw [h1]
    exact .nothing fun i hi hr => h2 i ((hR i hi).1 hr)
  · rw [h1]
    obtain ⟨j, hj⟩ := hp n h2
    exact .one h0 hj ((hR n (hp n h2)).2 h2) fun i hi hr => h3 i ((hR i hi).1 hr)
  · rw [h1]
    exact .many hab (hp a ha) (hp b hb) ((hR a (hp a ha)).2 ha) ((hR b (hp b hb)).2 hb)

theorem byName_found {s : State} (hz : jobAt s 0 = none) {name : List Char} (h1 : ¬Symbol name) (h2 : ¬IsNumber name) :
    Found s (Means s name) (match (generalizing := false) name with
      | '?' :: t => nameLoop s (fun n => contains n t) (List.range' 1 (s.jobs.length - 1)) 0
      | _ => nameLoop s (fun n => name.isPrefixOf n) (List.range' 1 (s.jobs.length - 1)) 0) := by
  have hno : ∀ i, Means s name i → (∃ t j, name = '?' :: t ∧ jobAt s i = some j ∧ Occurs t j.name) ∨
      (name.head? ≠ some '?' ∧ ∃ j, jobAt s i = some j ∧ Begins name j.name) := by
    intro i h
    cases h with
    | current h => exact absurd (h.elim .inl fun h => .inr (h.elim .inl fun h => .inr (.inl h))) h1
    | previous => exact absurd (.inr (.inr (.inr rfl))) h1
    | number h h' => exact absurd ⟨_, h, h'⟩ h2
    | containing hj ho => exact .inl ⟨_, _, rfl, hj, ho⟩
    | beginning _ _ hh hj hb => exact .inr ⟨hh, _, hj, hb⟩
  have hq : ∀ t, name = '?' :: t → Found s (Means s name) (nameLoop s (fun n => contains n t) (List.range' 1 (s.jobs.length - 1)) 0) := by
    rintro t rfl
    refine search_found hz _ _ fun i _ => ?_
    constructor
    · intro h
      rcases hno i h with ⟨t', j, he, hj, ho⟩ | ⟨hh, _⟩
      · cases he
        exact ⟨j, hj, (contains_iff _ _).2 ho⟩
      · exact absurd rfl hh
    · rintro ⟨j, hj, ho⟩
      exact .containing hj ((contains_iff _ _).1 ho)
  have ho : (∀ t, name ≠ '?' :: t) → Found s (Means s name) (nameLoop s (fun n => name.isPrefixOf n) (List.range' 1 (s.jobs.length - 1)) 0) := by
    intro hne
    have hh : name.head? ≠ some '?' := by
      cases name with
      | nil => simp
      | cons c t =>
        simp only [List.head?_cons, ne_eq, Option.some.injEq]
        rintro rfl
        exact hne t rfl
    refine search_found hz _ _ fun i _ => ?_
    constructor
    · intro h
      rcases hno i h with ⟨t', j, he, hj, ho⟩ | ⟨_, j, hj, hb⟩
      · exact absurd he (hne t')
      · exact ⟨j, hj, (isPrefixOf_iff _ _).2 hb⟩
    · rintro ⟨j, hj, ho⟩
      exact .beginning h1 h2 hh hj ((isPrefixOf_iff _ _).1 ho)
  clear hno h1 h2
  split
  · exact hq _ rfl
  · rename_i hne
    exact ho fun t ht => hne t ht

theorem exact_found {s : State} (hz : jobAt s 0 = none) {n : Nat} {R : Nat → Prop} (hR : ∀ i, R i ↔ i = n) (hp : n = 0 ∨ Present s n) : Found s R n := by
  rcases hp with rfl | ⟨j, hj⟩
  · refine .nothing fun i ⟨j, hj⟩ hr => ?_
    rw [(hR i).1 hr, hz] at hj
    cases hj
  · refine .one ?_ hj ((hR n).2 rfl) fun i _ hr => (hR i).1 hr
    rintro rfl
    rw [hz] at hj; cases hj

theorem number_found {s : State} (hz : jobAt s 0 = none) (hv : Valid s) (name : List Char) : Found s (Means s name) (numberFromName s name) := by
  unfold numberFromName
  by_cases hc : name = [] ∨ name = ['%'] ∨ name = ['+']
  · rw [if_pos (by simpa [or_assoc] using hc)]
    refine exact_found hz (fun i => ⟨fun h => ?_, fun h => h ▸ .current hc⟩) hv.current
    cases h with
    | current _ => rfl
    | previous => simp at hc
    | number h _ =>
      have := numeral_head h
      rcases hc with rfl | rfl | rfl <;> cases this
    | containing _ _ => simp at hc
    | beginning h _ _ _ _ => exact absurd (hc.elim .inl fun h => .inr (h.elim .inl fun h => .inr (.inl h))) h
  · rw [if_neg (by simpa [or_assoc] using hc)]
    by_cases hm : name = ['-']
    · rw [if_pos hm]
      subst hm
      refine exact_found hz (fun i => ⟨fun h => ?_, fun h => h ▸ .previous⟩) hv.previous
      cases h with
      | current h => exact absurd h hc
      | previous => rfl
      | number h _ => cases numeral_head h
      | beginning h _ _ _ _ => exact absurd (.inr (.inr (.inr rfl))) h
    · rw [if_neg hm]
      have hs : ¬Symbol name := by
        rintro (h | h | h | h)
        · exact hc (.inl h)
        · exact hc (.inr (.inl h))
        · exact hc (.inr (.inr h))
        · exact hm h
      have hne : name ≠ [] := fun h => hc (.inl h)
      simp only
      by_cases hd : name.head?.any isDigit = true
      · rw [if_pos hd]
        cases hn : toNumber name with
        | none =>
          refine byName_found hz hs ?_
          rintro ⟨n, h⟩
          rw [(toNumber_iff name n hne).2 h] at hn
          cases hn
        | some n =>
          have hnum := (toNumber_iff name n hne).1 hn
          have hR : ∀ i, Means s name i ↔ i = n := by
            intro i
            refine ⟨fun h => ?_, fun h => h ▸ .number hnum.1 hnum.2⟩
            cases h with
            | current h => exact absurd h hc
            | previous => exact absurd rfl hm
            | number h h' =>
              have := (toNumber_iff name i hne).2 ⟨h, h'⟩
              rw [hn] at this
              exact (Option.some.inj this).symm
            | containing _ _ => cases hd
            | beginning _ h _ _ _ => exact absurd ⟨n, hnum⟩ h
          simp only [getJob_eq]
          cases hj : jobAt s n with
          | none =>
            simp only [Option.isSome_none, Bool.false_eq_true, if_false]
            refine .nothing fun i ⟨j, hj'⟩ hr => ?_
            rw [(hR i).1 hr, hj] at hj'
            cases hj'
          | some j =>
            simp only [Option.isSome_some, if_true]
            exact exact_found hz hR (.inr ⟨j, hj⟩)
      · rw [if_neg hd]
        refine byName_found hz hs ?_
        rintro ⟨n, h, _⟩
        exact hd (numeral_head h)

end Yash.Job
