import Verif.History.Lists
/-!
# Finding entries
-/
set_option autoImplicit false

namespace Yash.History

open Yash.Spec.History

/-- How the code represents a place. -/
def ofPlace (l : List Entry) : Place → Found
  | .before => { prev := none, next := some 0 }
  | .entry i => { prev := some i, next := some i }
  | .between i => { prev := some i, next := some (i + 1) }
  | .after => { prev := some (l.length - 1), next := none }

theorem fromOldest_found {n : Nat} {X s : List Entry} {e : Entry} (t : List Entry) (hX : ∀ x ∈ X, n < x.number) (hs : ∀ x ∈ s, x.number < n) (he : e.number = n) :
    fromOldest n (X ++ (s ++ e :: t)) = some { prev := some (X.length + s.length), next := some (X.length + s.length) } := by
  have h1 : (X ++ (s ++ e :: t)).dropWhile (fun e => n < e.number) = s ++ e :: t := by
    rw [List.dropWhile_append_of_pos (by simpa using hX)]
    cases s with
    | nil => rw [List.nil_append, List.dropWhile_cons_of_neg (by simp [he])]
    | cons y s =>
      have := hs y (by simp)
      rw [List.cons_append, List.dropWhile_cons_of_neg (by simp; omega)]
  have h2 : (s ++ e :: t).dropWhile (fun e => n > e.number) = e :: t := by
    rw [List.dropWhile_append_of_pos (by simpa using hs), List.dropWhile_cons_of_neg (by simp [he])]
  simp only [fromOldest, h1, h2]
  have : (X ++ (s ++ e :: t)).length - (e :: t).length = X.length + s.length := by simp only [List.length_append]; omega
  simp [he]
  omega

theorem fromOldest_between {n : Nat} {X s : List Entry} {e1 e2 : Entry} (t : List Entry) (hX : ∀ x ∈ X, n < x.number) (hs : ∀ x ∈ s, x.number < n) (he1 : e1.number < n)
    (he2 : n < e2.number) :
    fromOldest n (X ++ (s ++ e1 :: e2 :: t)) = some { prev := some (X.length + s.length), next := some (X.length + s.length + 1) } := by
  have h1 : (X ++ (s ++ e1 :: e2 :: t)).dropWhile (fun e => n < e.number) = s ++ e1 :: e2 :: t := by
    rw [List.dropWhile_append_of_pos (by simpa using hX)]
    cases s with
    | nil => rw [List.nil_append, List.dropWhile_cons_of_neg (by simp; omega)]
    | cons y s =>
      have := hs y (by simp)
      rw [List.cons_append, List.dropWhile_cons_of_neg (by simp; omega)]
  have h2 : (s ++ e1 :: e2 :: t).dropWhile (fun e => n > e.number) = e2 :: t := by
    rw [List.dropWhile_append_of_pos (by simpa using hs), List.dropWhile_cons_of_pos (by simpa using he1), List.dropWhile_cons_of_neg (by simp; omega)]
  simp only [fromOldest, h1, h2]
  have : (X ++ (s ++ e1 :: e2 :: t)).length - (e2 :: t).length = X.length + s.length + 1 := by simp only [List.length_append, List.length_cons]; omega
  rw [this, if_pos (by omega), if_neg (by omega)]
  simp

theorem fromNewest_found {n : Nat} {s Y : List Entry} {e : Entry} (t : List Entry) (hY : ∀ x ∈ Y, x.number < n) (hs : ∀ x ∈ s, n < x.number) (he : e.number = n) :
    fromNewest n (t ++ e :: (s ++ Y)) = some { prev := some t.length, next := some t.length } := by
  have h0 : (t ++ e :: (s ++ Y)).reverse = Y.reverse ++ (s.reverse ++ e :: t.reverse) := by simp
  have h1 : (Y.reverse ++ (s.reverse ++ e :: t.reverse)).dropWhile (fun e => n > e.number) = s.reverse ++ e :: t.reverse := by
    rw [List.dropWhile_append_of_pos (by simpa using hY)]
    cases hsr : s.reverse with
    | nil => rw [List.nil_append, List.dropWhile_cons_of_neg (by simp [he])]
    | cons y s' =>
      have := hs y (by rw [← List.mem_reverse, hsr]; simp)
      rw [List.cons_append, List.dropWhile_cons_of_neg (by simp; omega)]
  have h2 : (s.reverse ++ e :: t.reverse).dropWhile (fun e => n < e.number) = e :: t.reverse := by
    rw [List.dropWhile_append_of_pos (by simpa using hs), List.dropWhile_cons_of_neg (by simp [he])]
  simp only [fromNewest, h0, h1, h2]
  simp [he]

theorem fromNewest_between {n : Nat} {s Y : List Entry} {e1 e2 : Entry} (t : List Entry) (hY : ∀ x ∈ Y, x.number < n) (hs : ∀ x ∈ s, n < x.number) (he1 : e1.number < n)
    (he2 : n < e2.number) :
    fromNewest n (t ++ e1 :: e2 :: (s ++ Y)) = some { prev := some t.length, next := some (t.length + 1) } := by
  have h0 : (t ++ e1 :: e2 :: (s ++ Y)).reverse = Y.reverse ++ (s.reverse ++ e2 :: e1 :: t.reverse) := by simp
  have h1 : (Y.reverse ++ (s.reverse ++ e2 :: e1 :: t.reverse)).dropWhile (fun e => n > e.number) = s.reverse ++ e2 :: e1 :: t.reverse := by
    rw [List.dropWhile_append_of_pos (by simpa using hY)]
    cases hsr : s.reverse with
    | nil => rw [List.nil_append, List.dropWhile_cons_of_neg (by simp; omega)]
    | cons y s' =>
      have := hs y (by rw [← List.mem_reverse, hsr]; simp)
      rw [List.cons_append, List.dropWhile_cons_of_neg (by simp; omega)]
  have h2 : (s.reverse ++ e2 :: e1 :: t.reverse).dropWhile (fun e => n < e.number) = e1 :: t.reverse := by
    rw [List.dropWhile_append_of_pos (by simpa using hs), List.dropWhile_cons_of_pos (by simpa using he2), List.dropWhile_cons_of_neg (by simp; omega)]
  simp only [fromNewest, h0, h1, h2]
  rw [if_pos (by omega), if_pos (by simp)]
  simp

/-- A number between the first and the last of increasing numbers is one of them or between two of them. -/
theorem increasing_split {n : Nat} {S : List Entry} (h : (S.map (·.number)).Pairwise (· < ·)) (h1 : ∃ e ∈ S, e.number ≤ n) (h2 : ∃ e ∈ S, n ≤ e.number) :
    (∃ s1 e s2, S = s1 ++ e :: s2 ∧ e.number = n ∧ (∀ x ∈ s1, x.number < n) ∧ (∀ x ∈ s2, n < x.number)) ∨
    (∃ s1 e1 e2 s2, S = s1 ++ e1 :: e2 :: s2 ∧ e1.number < n ∧ n < e2.number ∧ (∀ x ∈ s1, x.number < n) ∧ (∀ x ∈ s2, n < x.number)) := by
  induction S with
  | nil => obtain ⟨e, he, _⟩ := h1; simp at he
  | cons x S ih =>
    rw [List.map_cons, List.pairwise_cons] at h
    have hx : ∀ y ∈ S, x.number < y.number := fun y hy => h.1 _ (List.mem_map_of_mem hy)
    rcases Nat.lt_trichotomy x.number n with hlt | heq | hgt
    · cases hS : S with
      | nil =>
        subst hS
        obtain ⟨e, he, hen⟩ := h2
        simp at he
        subst he
        omega
      | cons y S' =>
        by_cases hy : n < y.number
        · right
          refine ⟨[], x, y, S', rfl, hlt, hy, by simp, ?_⟩
          intro z hz
          have hp := h.2
          rw [hS, List.map_cons, List.pairwise_cons] at hp
          have := hp.1 _ (List.mem_map_of_mem (f := fun e : Entry => e.number) hz)
          omega
        · rw [← hS]
          rcases ih h.2 ⟨y, by simp [hS], by omega⟩ (by
              obtain ⟨e, he, hen⟩ := h2
              rcases List.mem_cons.mp he with rfl | he
              · omega
              · exact ⟨e, he, hen⟩) with ⟨s1, e, s2, rfl, he, hs1, hs2⟩ | ⟨s1, e1, e2, s2, rfl, he1, he2, hs1, hs2⟩
          · refine Or.inl ⟨x :: s1, e, s2, rfl, he, ?_, hs2⟩
            intro z hz
            rcases List.mem_cons.mp hz with rfl | hz
            · exact hlt
            · exact hs1 z hz
          · refine Or.inr ⟨x :: s1, e1, e2, s2, rfl, he1, he2, ?_, hs2⟩
            intro z hz
            rcases List.mem_cons.mp hz with rfl | hz
            · exact hlt
            · exact hs1 z hz
    · left
      refine ⟨[], x, S, rfl, heq, by simp, ?_⟩
      intro z hz
      have := hx z hz
      omega
    · obtain ⟨e, he, hen⟩ := h1
      rcases List.mem_cons.mp he with rfl | he
      · omega
      · have := hx e he
        omega

/-- Both ways of searching find the place in the part of the history where the number belongs. -/
theorem segment_search {n : Nat} {X S Y : List Entry} (hS : (S.map (·.number)).Pairwise (· < ·)) (hX : ∀ x ∈ X, n < x.number) (hY : ∀ x ∈ Y, x.number < n)
    (h1 : ∃ e ∈ S, e.number ≤ n) (h2 : ∃ e ∈ S, n ≤ e.number) :
    ∃ p, NumberAt (X ++ S ++ Y) n p ∧ fromOldest n (X ++ S ++ Y) = some (ofPlace (X ++ S ++ Y) p) ∧ fromNewest n (X ++ S ++ Y) = some (ofPlace (X ++ S ++ Y) p) := by
  rcases increasing_split hS h1 h2 with ⟨s1, e, s2, rfl, he, hs1, hs2⟩ | ⟨s1, e1, e2, s2, rfl, he1, he2, hs1, hs2⟩
  · refine ⟨.entry (X.length + s1.length), ⟨e, by simp, he⟩, ?_, ?_⟩
    · have : X ++ (s1 ++ e :: s2) ++ Y = X ++ (s1 ++ e :: (s2 ++ Y)) := by simp
      rw [this, fromOldest_found _ hX hs1 he]
      rfl
    · have : X ++ (s1 ++ e :: s2) ++ Y = (X ++ s1) ++ e :: (s2 ++ Y) := by simp
      rw [this, fromNewest_found _ hY hs2 he]
      simp [ofPlace]
  · refine ⟨.between (X.length + s1.length), ⟨e1, e2, by simp, ?_, he1, he2⟩, ?_, ?_⟩
    · have : X ++ (s1 ++ e1 :: e2 :: s2) ++ Y = (X ++ s1 ++ [e1]) ++ (e2 :: (s2 ++ Y)) := by simp
      have hl : (X ++ s1 ++ [e1]).length = X.length + s1.length + 1 := by simp only [List.length_append, List.length_cons, List.length_nil]
      rw [this, List.getElem?_append_right (by omega), hl]
      simp
    · have : X ++ (s1 ++ e1 :: e2 :: s2) ++ Y = X ++ (s1 ++ e1 :: e2 :: (s2 ++ Y)) := by simp
      rw [this, fromOldest_between _ hX hs1 he1 he2]
      rfl
    · have : X ++ (s1 ++ e1 :: e2 :: s2) ++ Y = (X ++ s1) ++ e1 :: e2 :: (s2 ++ Y) := by simp
      rw [this, fromNewest_between _ hY hs2 he1 he2]
      simp [ofPlace]

/-- The numbers of a history that is not empty: they increase, or there are two parts. -/
theorem good_cases {P : Params} {l : List Entry} (h : Good P l) {o w : Entry} (ho : l.head? = some o) (hw : l.getLast? = some w) :
    (o.number ≤ w.number ∧ (l.map (·.number)).Pairwise (· < ·)) ∨
    (w.number < o.number ∧ ∃ a b, l = a ++ b ∧ o ∈ a ∧ w ∈ b ∧ (a.map (·.number)).Pairwise (· < ·) ∧ (b.map (·.number)).Pairwise (· < ·) ∧
      (∀ x ∈ a, ∀ y ∈ b, y.number < x.number) ∧ (∀ x ∈ a, o.number ≤ x.number) ∧ (∀ y ∈ b, y.number ≤ w.number)) := by
  have ho' : (l.map (·.number)).head? = some o.number := by simp [ho]
  have hw' : (l.map (·.number)).getLast? = some w.number := by simp [hw]
  rcases cyclic_cases h.2 ho' hw' with h | ⟨hlt, a, b, hab, hae, hbe, ha, hb, habn, hao, hbw⟩
  · exact Or.inl h
  · obtain ⟨a', b', rfl, rfl, rfl⟩ := List.map_eq_append_iff.mp hab
    refine Or.inr ⟨hlt, a', b', rfl, ?_, ?_, ha, hb, ?_, ?_, ?_⟩
    · exact List.mem_of_head? (head_append ho (by simpa using hae))
    · exact List.mem_of_getLast? (last_append hw (by simpa using hbe))
    · exact fun x hx y hy => habn _ (List.mem_map_of_mem hx) _ (List.mem_map_of_mem hy)
    · exact fun x hx => hao _ (List.mem_map_of_mem hx)
    · exact fun y hy => hbw _ (List.mem_map_of_mem hy)

/-- Searching finds the place of a number, unless the numbers have started again and the number is beyond them all. -/
theorem search_place {P : Params} {l : List Entry} (h : Good P l) (hne : l ≠ []) {n : Nat} (hn : ¬ Beyond l n) :
    ∃ p, NumberAt l n p ∧ search P n l = some (ofPlace l p) := by
  obtain ⟨o, ho⟩ : ∃ o, l.head? = some o := by cases l with | nil => exact absurd rfl hne | cons x l => exact ⟨x, rfl⟩
  obtain ⟨w, hw⟩ : ∃ w, l.getLast? = some w := ⟨l.getLast hne, List.getLast?_eq_some_getLast hne⟩
  have hom := List.mem_of_head? ho
  have hwm := List.mem_of_getLast? hw
  have hor := h.2.1 _ (List.mem_map_of_mem (f := fun e : Entry => e.number) hom)
  have hwr := h.2.1 _ (List.mem_map_of_mem (f := fun e : Entry => e.number) hwm)
  simp only [search, ho, hw]
  rcases good_cases h ho hw with ⟨how, hp⟩ | ⟨how, a, b, rfl, hoa, hwb, ha, hb, hab, hao, hbw⟩
  · have hd : decide (w.number < o.number) = false := by simp; omega
    simp only [hd, Bool.false_and, Bool.false_eq_true, if_false, if_neg (Nat.not_lt.mpr how)]
    by_cases h1 : n < o.number
    · rw [if_pos h1]
      exact ⟨.before, ⟨o, w, ho, hw, h1, by omega⟩, rfl⟩
    · rw [if_neg h1]
      by_cases h2 : n > w.number
      · rw [if_pos h2]
        exact ⟨.after, ⟨o, w, ho, hw, how, h2⟩, rfl⟩
      · rw [if_neg h2]
        obtain ⟨p, hp1, hp2, hp3⟩ := segment_search (n := n) (X := []) (S := l) (Y := []) hp (by simp) (by simp) ⟨o, hom, by omega⟩ ⟨w, hwm, by omega⟩
        simp only [List.nil_append, List.append_nil] at hp1 hp2 hp3
        exact ⟨p, hp1, by split <;> assumption⟩
  · have hd : decide (w.number < o.number) = true := by simpa using how
    simp only [hd, Bool.true_and, if_true, decide_eq_true_eq, if_pos how]
    have hwrap : Wrapped (a ++ b) := ⟨o, w, ho, hw, how⟩
    have hb1 : ∃ e ∈ a ++ b, n ≤ e.number := by
      refine Classical.byContradiction fun hc => hn ⟨hwrap, Or.inl ?_⟩
      intro e he
      exact Nat.lt_of_not_le fun hle => hc ⟨e, he, hle⟩
    have hb2 : ∃ e ∈ a ++ b, e.number ≤ n := by
      refine Classical.byContradiction fun hc => hn ⟨hwrap, Or.inr ?_⟩
      intro e he
      exact Nat.lt_of_not_le fun hle => hc ⟨e, he, hle⟩
    by_cases h1 : n ≤ w.number
    · rw [if_pos h1]
      rw [if_neg (by omega), if_neg (by omega)]
      obtain ⟨p, hp1, hp2, hp3⟩ := segment_search (n := n) (X := a) (S := b) (Y := []) hb (by
          intro x hx
          have := hao x hx
          omega) (by simp) (by
          obtain ⟨e, he, hen⟩ := hb2
          rcases List.mem_append.mp he with he | he
          · have := hao e he
            omega
          · exact ⟨e, he, hen⟩) ⟨w, hwb, h1⟩
      simp only [List.append_nil] at hp1 hp2 hp3
      exact ⟨p, hp1, by split <;> assumption⟩
    · rw [if_neg h1]
      by_cases h2 : n < o.number
      · rw [if_pos h2]
        exact ⟨.before, ⟨o, w, ho, hw, h2, by omega⟩, rfl⟩
      · rw [if_neg h2]
        obtain ⟨e, he, hen⟩ := hb1
        have hea : e ∈ a := by
          rcases List.mem_append.mp he with he | he
          · exact he
          · have := hbw e he
            omega
        have her := h.2.1 _ (List.mem_map_of_mem (f := fun e : Entry => e.number) (List.mem_append_left b hea))
        rw [if_neg (by omega)]
        obtain ⟨p, hp1, hp2, hp3⟩ := segment_search (n := n) (X := []) (S := a) (Y := b) ha (by simp) (by
            intro y hy
            have := hbw y hy
            omega) ⟨o, hoa, by omega⟩ ⟨e, hea, hen⟩
        simp only [List.nil_append] at hp1 hp2 hp3
        exact ⟨p, hp1, by split <;> assumption⟩

/-- The place of a number is unique. -/
theorem numberAt_entry_unique {P : Params} {l : List Entry} (h : Good P l) {n i j : Nat} (hi : NumberAt l n (.entry i)) (hj : NumberAt l n (.entry j)) : i = j := by
  obtain ⟨e, he, hen⟩ := hi
  obtain ⟨f, hf, hfn⟩ := hj
  have hnd := cyclic_nodup h.2
  rw [List.Nodup, List.pairwise_iff_getElem] at hnd
  obtain ⟨hil, rfl⟩ := List.getElem?_eq_some_iff.mp he
  obtain ⟨hjl, rfl⟩ := List.getElem?_eq_some_iff.mp hf
  rcases Nat.lt_trichotomy i j with hlt | heq | hlt
  · have := hnd i j (by simpa using hil) (by simpa using hjl) hlt
    simp only [List.getElem_map] at this
    omega
  · exact heq
  · have := hnd j i (by simpa using hjl) (by simpa using hil) hlt
    simp only [List.getElem_map] at this
    omega

theorem between_not_entry {P : Params} {l : List Entry} (h : Good P l) {n i : Nat} (hi : NumberAt l n (.between i)) (j : Nat) : ¬ NumberAt l n (.entry j) := by
  intro hj
  obtain ⟨e1, e2, h1, h2, hlt1, hlt2⟩ := hi
  obtain ⟨f, hf, hfn⟩ := hj
  have hl : l = l.take i ++ e1 :: e2 :: l.drop (i + 2) := by
    rw [List.getElem?_eq_some_iff] at h1 h2
    obtain ⟨h1l, rfl⟩ := h1
    obtain ⟨h2l, rfl⟩ := h2
    rw [← List.drop_eq_getElem_cons h2l, ← List.drop_eq_getElem_cons h1l, List.take_append_drop]
  obtain ⟨_, a, b, hab, ha, hb, hlt⟩ := h.2
  have hfm := List.mem_of_getElem? hf
  rw [hl] at hab hfm
  have key : ∀ (S : List Nat) (s1 s2 : List Nat), S.Pairwise (· < ·) → S = s1 ++ e1.number :: e2.number :: s2 → f.number ∉ S := by
    rintro S s1 s2 hS rfl hm
    rw [List.pairwise_append] at hS
    obtain ⟨_, hS2, hS3⟩ := hS
    rw [List.pairwise_cons, List.pairwise_cons] at hS2
    simp only [List.mem_append, List.mem_cons] at hm
    rcases hm with hm | hm | hm | hm
    · have := hS3 _ hm e1.number (by simp); omega
    · omega
    · omega
    · have := hS2.2.1 _ hm; omega
  have hfa : f.number ∈ (a ++ b) := by rw [← hab]; exact List.mem_map_of_mem hfm
  rw [List.map_append, List.map_cons, List.map_cons] at hab
  rcases List.append_eq_append_iff.mp hab with ⟨c, hc1, hc2⟩ | ⟨c, hc1, hc2⟩
  · -- a = take ++ c, e1 :: e2 :: _ = c ++ b
    match c, hc2 with
    | [], hc2 =>
      rw [List.nil_append] at hc2
      rcases List.mem_append.mp hfa with hm | hm
      · have := hlt _ hm e2.number (by rw [← hc2]; simp); omega
      · exact key b [] _ hb (by rw [List.nil_append]; exact hc2.symm) hm
    | [x], hc2 =>
      simp only [List.cons_append, List.nil_append, List.cons.injEq] at hc2
      obtain ⟨rfl, hc2⟩ := hc2
      have := hlt e1.number (by rw [hc1]; simp) e2.number (by rw [← hc2]; simp)
      omega
    | x :: y :: c, hc2 =>
      simp only [List.cons_append, List.cons.injEq] at hc2
      obtain ⟨rfl, rfl, hc2⟩ := hc2
      rcases List.mem_append.mp hfa with hm | hm
      · exact key a _ c ha hc1 hm
      · have := hlt e1.number (by rw [hc1]; simp) _ hm; omega
  · -- take = a ++ c, b = c ++ e1 :: ..
    rcases List.mem_append.mp hfa with hm | hm
    · have := hlt _ hm e2.number (by rw [hc2]; simp); omega
    · exact key b c _ hb hc2 hm

theorem before_not_entry {P : Params} {l : List Entry} (h : Good P l) {n : Nat} (hi : NumberAt l n .before) (j : Nat) : ¬ NumberAt l n (.entry j) := by
  rintro ⟨f, hf, hfn⟩
  obtain ⟨o, w, ho, hw, hlt, hw2⟩ := hi
  have hfm := List.mem_of_getElem? hf
  rcases good_cases h ho hw with ⟨how, hp⟩ | ⟨how, a, b, rfl, hoa, hwb, ha, hb, hab, hao, hbw⟩
  · have := le_of_head_mem hp (List.mem_map_of_mem (f := fun e : Entry => e.number) hfm) (o := o.number) (by simp [ho])
    omega
  · have := hw2 how
    rcases List.mem_append.mp hfm with hm | hm
    · have := hao f hm; omega
    · have := hbw f hm; omega

theorem after_not_entry {P : Params} {l : List Entry} (h : Good P l) {n : Nat} (hi : NumberAt l n .after) (j : Nat) : ¬ NumberAt l n (.entry j) := by
  rintro ⟨f, hf, hfn⟩
  obtain ⟨o, w, ho, hw, hle, hlt⟩ := hi
  have hfm := List.mem_of_getElem? hf
  rcases good_cases h ho hw with ⟨how, hp⟩ | ⟨how, _⟩
  · have := le_of_mem_last hp (List.mem_map_of_mem (f := fun e : Entry => e.number) hfm) (w := w.number) (by simp [hw])
    omega
  · omega

/-- An existing number is never beyond. -/
theorem entry_not_beyond {l : List Entry} {n i : Nat} (hi : NumberAt l n (.entry i)) : ¬ Beyond l n := by
  rintro ⟨_, h | h⟩
  · obtain ⟨e, he, hen⟩ := hi
    have := h e (List.mem_of_getElem? he); omega
  · obtain ⟨e, he, hen⟩ := hi
    have := h e (List.mem_of_getElem? he); omega

theorem numberAt_ne_nil {l : List Entry} {n : Nat} {p : Place} (h : NumberAt l n p) : l ≠ [] := by
  rintro rfl
  cases p <;> simp [NumberAt] at h

/-- Searching for an existing number finds it. -/
theorem search_entry {P : Params} {l : List Entry} (h : Good P l) {n i : Nat} (hi : NumberAt l n (.entry i)) : search P n l = some { prev := some i, next := some i } := by
  obtain ⟨p, hp, hs⟩ := search_place h (numberAt_ne_nil hi) (entry_not_beyond hi)
  rw [hs]
  cases p with
  | before => exact absurd hi (before_not_entry h hp i)
  | after => exact absurd hi (after_not_entry h hp i)
  | between j => exact absurd hi (between_not_entry h hp i)
  | entry j => rw [numberAt_entry_unique h hi hp]; rfl

/-- In a history that has started again, searching for a number beyond all others, up to the limit of numbers, follows the links out of the list. -/
theorem search_beyond {P : Params} {l : List Entry} (h : Good P l) {n : Nat} (hn : Beyond l n) (hmax : n ≤ P.max) : search P n l = none := by
  obtain ⟨⟨o, w, ho, hw, how⟩, hn⟩ := hn
  have hom := List.mem_of_head? ho
  have hwm := List.mem_of_getLast? hw
  have hor := h.2.1 _ (List.mem_map_of_mem (f := fun e : Entry => e.number) hom)
  have hwr := h.2.1 _ (List.mem_map_of_mem (f := fun e : Entry => e.number) hwm)
  simp only [search, ho, hw]
  have hd : decide (w.number < o.number) = true := by simpa using how
  simp only [hd, Bool.true_and, if_true, decide_eq_true_eq, if_pos how]
  have hOld : fromOldest n l = none := by
    rcases hn with hn | hn
    · have h1 : l.dropWhile (fun e => n < e.number) = l := by
        cases l with
        | nil => rfl
        | cons x l =>
          have := hn x (by simp)
          rw [List.dropWhile_cons_of_neg (by simp; omega)]
      have h2 : l.dropWhile (fun e => n > e.number) = [] := by
        have := List.dropWhile_append_of_pos (p := fun e : Entry => decide (n > e.number)) (l₁ := l) (l₂ := []) (by simpa using hn)
        simpa using this
      simp only [fromOldest, h1, h2]
    · have h1 : l.dropWhile (fun e => n < e.number) = [] := by
        have := List.dropWhile_append_of_pos (p := fun e : Entry => decide (n < e.number)) (l₁ := l) (l₂ := []) (by simpa using hn)
        simpa using this
      simp only [fromOldest, h1, List.dropWhile_nil]
  have hNew : fromNewest n l = none := by
    rcases hn with hn | hn
    · have h1 : l.reverse.dropWhile (fun e => n > e.number) = [] := by
        have := List.dropWhile_append_of_pos (p := fun e : Entry => decide (n > e.number)) (l₁ := l.reverse) (l₂ := []) (by simpa using hn)
        simpa using this
      simp only [fromNewest, h1, List.dropWhile_nil]
    · have h1 : l.reverse.dropWhile (fun e => n > e.number) = l.reverse := by
        cases hr : l.reverse with
        | nil => rfl
        | cons x r =>
          have := hn x (by rw [← List.mem_reverse, hr]; simp)
          rw [List.dropWhile_cons_of_neg (by simp; omega)]
      have h2 : l.reverse.dropWhile (fun e => n < e.number) = [] := by
        have := List.dropWhile_append_of_pos (p := fun e : Entry => decide (n < e.number)) (l₁ := l.reverse) (l₂ := []) (by simpa using hn)
        simpa using this
      simp only [fromNewest, h1, h2]
  rw [hOld, hNew]
  have h1 := hn
  rcases hn with hn | hn
  · have := hn o hom
    have := hn w hwm
    rw [if_neg (by omega : ¬ n ≤ w.number), if_neg (by omega), if_neg (by omega)]
    split <;> rfl
  · have := hn w hwm
    rw [if_pos (by omega : n ≤ w.number), if_neg (by omega), if_neg (by omega)]
    split <;> rfl

/-! ## Other ways of finding -/

theorem nthNewest_back {l : List Entry} {k : Nat} (h : 0 < k) (hk : k ≤ l.length) : nthNewest k l = some (l.length - k) := by
  rw [nthNewest]
  by_cases hkl : l.length ≤ k
  · have : k = l.length := by omega
    rw [if_pos hkl, if_neg (by cases l <;> simp at *; omega), this]
    simp
  · rw [if_neg hkl, if_neg (by omega)]

theorem nthNewest_tooFar {l : List Entry} (hne : l ≠ []) {k : Nat} (hk : l.length ≤ k) : nthNewest k l = some 0 := by
  rw [nthNewest, if_pos hk, if_neg (by simpa using hne)]

theorem searchPrefix_some {l : List Entry} {s : Str} {i : Nat} : searchPrefix s l = some i ↔ NewestWith l s i := by
  constructor
  · intro h
    simp only [searchPrefix, Option.map_eq_some_iff, List.findIdx?_eq_some_iff_getElem] at h
    obtain ⟨k, ⟨hk, hpre, hlt⟩, rfl⟩ := h
    rw [List.length_reverse] at hk
    simp only [List.getElem_reverse] at hpre hlt
    constructor
    · refine ⟨l[l.length - 1 - k], ?_⟩
      obtain ⟨t, ht⟩ := List.isPrefixOf_iff_prefix.mp hpre
      exact ⟨t, List.getElem?_eq_getElem _, ht.symm⟩
    · intro j e rest hj he hv
      obtain ⟨hjl, rfl⟩ := List.getElem?_eq_some_iff.mp he
      have := hlt (l.length - 1 - j) (by omega)
      have hidx : l.length - 1 - (l.length - 1 - j) = j := by omega
      simp only [hidx] at this
      rw [hv] at this
      exact this (by simp)
  · rintro ⟨⟨e, rest, he, hv⟩, hno⟩
    obtain ⟨hil, rfl⟩ := List.getElem?_eq_some_iff.mp he
    simp only [searchPrefix, Option.map_eq_some_iff, List.findIdx?_eq_some_iff_getElem]
    refine ⟨l.length - 1 - i, ⟨by simp; omega, ?_, ?_⟩, by omega⟩
    · simp only [List.getElem_reverse]
      have hidx : l.length - 1 - (l.length - 1 - i) = i := by omega
      simp only [hidx]
      rw [hv]
      simp
    · intro j hj hp
      simp only [List.getElem_reverse] at hp
      obtain ⟨t, ht⟩ := List.isPrefixOf_iff_prefix.mp hp
      exact hno (l.length - 1 - j) _ t (by omega) (List.getElem?_eq_getElem (by omega)) ht.symm

theorem newestWith_unique {l : List Entry} {s : Str} {i j : Nat} (hi : NewestWith l s i) (hj : NewestWith l s j) : i = j := by
  have := searchPrefix_some.mpr hi
  rw [searchPrefix_some.mpr hj] at this
  exact (Option.some.inj this).symm

end Yash.History
