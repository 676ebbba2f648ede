import Verif.Alias.Lemmas
/-! # Invariants of reading a command -/
set_option autoImplicit false

namespace Yash.Alias

open Spec

/-- Every alias that a character still to be read comes from is in the list, with a limit beyond
the character. -/
structure Blocks (src : List Char) (org : List (List Origin)) (l : List Item) (cur : Nat) :
    Prop where
  len : org.length = src.length
  block : ∀ p os, cur ≤ p → org[p]? = some os → ∀ o ∈ os, ∃ it ∈ l, it.alias = o.alias ∧ p < it.limit

theorem blocks_expired {blank : Char → Bool} {src : List Char} {org : List (List Origin)}
    {l l' : List Item} {cur i : Nat} {b : Bool} (hB : Blocks src org l cur) (hi : cur ≤ i)
    (h : removeExpired blank src i l = some (l', b)) : Blocks src org l' i := by
  refine ⟨hB.len, fun p os hp hos o ho => ?_⟩
  obtain ⟨it, hit, ha, hlt⟩ := hB.block p os (by omega) hos o ho
  obtain ⟨⟨pre, e, hall⟩, _, _⟩ := removeExpired_spec _ _ _ _ _ _ h
  rw [e, List.mem_append] at hit
  rcases hit with hit | hit
  · have := (hall it hit).1
    omega
  · exact ⟨it, hit, ha, hlt⟩

theorem blocks_reading {E : Env} {c : Bool} {src : List Char} {org : List (List Origin)}
    {l : List Item} {cur input : Nat} {used : List (Alias × Nat)}
    (h : Reading E c src org l cur input used) : Blocks src org l cur := by
  induction h with
  | start => exact ⟨rfl, by simp⟩
  | more t _ ih =>
    rename_i src org l cur input used hR
    refine ⟨by simp [ih.len], fun p os hp hos o ho => ?_⟩
    rw [List.getElem?_append] at hos
    by_cases hlt : p < org.length
    · rw [if_pos hlt] at hos
      exact ih.block p os hp hos o ho
    · rw [if_neg hlt, List.getElem?_replicate] at hos
      split at hos
      · cases hos
        cases ho
      · cases hos
  | continuation k hR hc hk h ih =>
    rename_i src org l cur input used src' l'
    obtain ⟨h1, h2, rfl, rfl⟩ := lineContinuation_some h
    have hlen : k + 1 < src.length := by
      rw [List.getElem?_eq_some_iff] at h2
      exact h2.1
    refine ⟨?_, ?_⟩
    · simp [ih.len]
    · intro p os hp hos o ho
      rw [getElem?_removed _ _ _ (by rw [ih.len]; omega)] at hos
      by_cases hlt : p < k
      · rw [if_pos hlt] at hos
        obtain ⟨it, hit, ha, hl⟩ := ih.block p os hp hos o ho
        refine ⟨shiftItem (k + 1) (-2) it, List.mem_map_of_mem hit, ha, ?_⟩
        simp only [shiftItem]
        split <;> omega
      · rw [if_neg hlt] at hos
        obtain ⟨it, hit, ha, hl⟩ := ih.block (p + 2) os (by omega) hos o ho
        refine ⟨shiftItem (k + 1) (-2) it, List.mem_map_of_mem hit, ha, ?_⟩
        simp only [shiftItem]
        split <;> omega
  | keep i j f hR hi hle h ih =>
    obtain ⟨rfl, ⟨rfl, he⟩ | ⟨b, hb⟩⟩ := substitute_none h
    · exact ⟨ih.len, fun p os hp => ih.block p os (by omega)⟩
    · exact blocks_expired ih hi hb
  | replace i j f hR hi hle h ih =>
    rename_i src org l cur input used a src' l'
    obtain ⟨lr, ls, b, hr⟩ := substitute_some h
    have hB := blocks_expired ih hi hr.expired
    have hlt := hr.lt
    have hlej := hr.le
    have hlen := ih.len
    rw [hr.src_eq, hr.list_eq, hr.shifted]
    refine ⟨?_, ?_⟩
    · simp only [List.length_append, List.length_take, List.length_drop, valueOrigins_length]
      omega
    · intro p os hp hos o ho
      rw [getElem?_replaced _ _ _ _ _ (by omega) (by omega), if_neg (by omega),
        valueOrigins_length] at hos
      by_cases hpv : p < i + a.value.length
      · rw [if_pos hpv, valueOrigins_get _ _ _ (by omega)] at hos
        cases hos
        rcases List.mem_cons.1 ho with rfl | ho
        · exact ⟨_, mem_addItem.2 (.inl rfl), rfl, hpv⟩
        · obtain ⟨x, hx⟩ : ∃ x, org[j - 1]? = some x := by
            rw [List.getElem?_eq_getElem (show j - 1 < org.length by omega)]
            exact ⟨_, rfl⟩
          rw [lastOrigins, hx] at ho
          obtain ⟨it, hit, ha, hl⟩ := hB.block (j - 1) x (by omega) hx o ho
          refine ⟨_, mem_addItem.2 (.inr (List.mem_map_of_mem hit)), ha, ?_⟩
          simp only [shiftItem]
          split <;> omega
      · rw [if_neg hpv] at hos
        obtain ⟨it, hit, ha, hl⟩ := hB.block _ os (by omega) hos o ho
        refine ⟨_, mem_addItem.2 (.inr (List.mem_map_of_mem hit)), ha, ?_⟩
        simp only [shiftItem]
        split <;> omega

theorem not_from_itself {E : Env} {src src' : List Char} {org : List (List Origin)}
    {l l' : List Item} {cur i j : Nat} {f : Flags} {a : Alias}
    (hB : Blocks src org l cur) (hi : cur ≤ i)
    (h : substituteRange E src i j l f = some (some a, src', l')) (p : Nat) (hp : i ≤ p)
    (os : List Origin) (hos : org[p]? = some os) : ∀ o ∈ os, o.alias ≠ a := by
  obtain ⟨lr, ls, b, hr⟩ := substitute_some h
  have hB' := blocks_expired hB hi hr.expired
  intro o ho ha
  obtain ⟨it, hit, hita, hlt⟩ := hB'.block p os hp hos o ho
  have := hr.free it hit (hita.trans ha)
  omega

/-! ### The number of substitutions -/

/-- The number of aliases a character may still be replaced by. -/
def freeCount (tbl : List Alias) (os : List Origin) : Nat :=
  (tbl.filter fun a => decide (∀ o ∈ os, o.alias ≠ a)).length

theorem freeCount_le (tbl : List Alias) (os : List Origin) : freeCount tbl os ≤ tbl.length :=
  List.length_filter_le ..

theorem freeCount_cons (tbl : List Alias) (os : List Origin) (a : Alias) (n : Nat) (ha : a ∈ tbl)
    (hos : ∀ o ∈ os, o.alias ≠ a) : freeCount tbl (⟨a, n⟩ :: os) + 1 ≤ freeCount tbl os := by
  unfold freeCount
  induction tbl with
  | nil => cases ha
  | cons b tbl ih =>
    have mono : (tbl.filter fun x => decide (∀ o ∈ (⟨a, n⟩ :: os : List Origin), o.alias ≠ x)).length ≤
        (tbl.filter fun x => decide (∀ o ∈ os, o.alias ≠ x)).length := by
      clear ih ha
      induction tbl with
      | nil => exact Nat.le_refl _
      | cons x tbl ih =>
        rw [List.filter_cons, List.filter_cons]
        by_cases h1 : ∀ o ∈ (⟨a, n⟩ :: os : List Origin), o.alias ≠ x
        · rw [if_pos (by simpa using h1), if_pos (by
            have h2 : ∀ o ∈ os, o.alias ≠ x := fun o ho => h1 o (List.mem_cons_of_mem _ ho)
            simpa using h2)]
          simp only [List.length_cons]
          omega
        · rw [if_neg (by simpa using h1)]
          split
          · simp only [List.length_cons]
            omega
          · exact ih
    rw [List.filter_cons, List.filter_cons]
    by_cases hb : b = a
    · rw [if_neg (by
        rw [decide_eq_true_eq]
        intro h
        exact h ⟨a, n⟩ (List.mem_cons_self ..) hb.symm), if_pos (by
        rw [decide_eq_true_eq, hb]
        exact hos)]
      simp only [List.length_cons]
      omega
    · have ha' : a ∈ tbl := by
        rcases List.mem_cons.1 ha with h | h
        · exact absurd h.symm hb
        · exact h
      have := ih ha'
      by_cases h2 : ∀ o ∈ os, o.alias ≠ b
      · rw [if_pos (by
          rw [decide_eq_true_eq]
          intro o ho
          rcases List.mem_cons.1 ho with rfl | ho
          · exact fun h => hb h.symm
          · exact h2 o ho), if_pos (by rw [decide_eq_true_eq]; exact h2)]
        simp only [List.length_cons]
        omega
      · rw [if_neg (by
          rw [decide_eq_true_eq]
          exact fun h => h2 fun o ho => h o (List.mem_cons_of_mem _ ho)), if_neg (by
          rw [decide_eq_true_eq]
          exact h2)]
        exact this

/-- The number of substitutions a character can take part in, at most. -/
def weight (tbl : List Alias) (M : Nat) (os : List Origin) : Nat := (M + 1) ^ freeCount tbl os

def total (tbl : List Alias) (M : Nat) (org : List (List Origin)) : Nat :=
  (org.map (weight tbl M)).sum

theorem weight_pos (tbl : List Alias) (M : Nat) (os : List Origin) : 0 < weight tbl M os :=
  Nat.pow_pos (Nat.succ_pos M)

theorem total_append (tbl : List Alias) (M : Nat) (o1 o2 : List (List Origin)) :
    total tbl M (o1 ++ o2) = total tbl M o1 + total tbl M o2 := by
  rw [total, List.map_append, List.sum_append]
  rfl

theorem total_bound (tbl : List Alias) (M k : Nat) (org : List (List Origin))
    (h : ∀ os ∈ org, weight tbl M os ≤ k) : total tbl M org ≤ org.length * k := by
  induction org with
  | nil => simp [total]
  | cons os org ih =>
    have h1 := h os (List.mem_cons_self ..)
    have h2 := ih fun x hx => h x (List.mem_cons_of_mem _ hx)
    have h3 : total tbl M (os :: org) = weight tbl M os + total tbl M org := by
      simp [total]
    rw [h3, List.length_cons, Nat.add_mul, Nat.one_mul]
    omega

theorem total_mem (tbl : List Alias) (M : Nat) (org : List (List Origin)) (os : List Origin)
    (h : os ∈ org) : weight tbl M os ≤ total tbl M org := by
  induction org with
  | nil => cases h
  | cons x org ih =>
    have h3 : total tbl M (x :: org) = weight tbl M x + total tbl M org := by
      simp [total]
    rw [h3]
    rcases List.mem_cons.1 h with rfl | h
    · omega
    · have := ih h
      omega

theorem bounded_reading {E : Env} {c : Bool} {src : List Char} {org : List (List Origin)}
    {l : List Item} {cur input : Nat} {used : List (Alias × Nat)} (M : Nat)
    (hM : ∀ a ∈ E.aliases, a.value.length ≤ M)
    (h : Reading E c src org l cur input used) :
    used.length + total E.aliases M org ≤ input * (M + 1) ^ E.aliases.length := by
  induction h with
  | start => simp [total]
  | more t _ ih =>
    rw [total_append, Nat.add_mul]
    have := total_bound E.aliases M ((M + 1) ^ E.aliases.length) (List.replicate t.length [])
      (fun os _ => Nat.pow_le_pow_right (Nat.succ_pos M) (freeCount_le ..))
    rw [List.length_replicate] at this
    omega
  | continuation k hR hc hk h ih =>
    rename_i src org l cur input used src' l'
    rw [List.length_map, total_append]
    have e : org = org.take k ++ ((org.drop k).take 2 ++ org.drop (k + 2)) := by
      conv => lhs; rw [← List.take_append_drop k org, ← List.take_append_drop 2 (org.drop k)]
      rw [List.drop_drop]
    rw [e, total_append, total_append] at ih
    omega
  | keep i j f hR hi hle h ih => exact ih
  | replace i j f hR hi hle h ih =>
    rename_i src org l cur input used a src' l'
    have hB := blocks_reading hR
    have hself := not_from_itself hB hi h
    obtain ⟨lr, ls, b, hr⟩ := substitute_some h
    have hlt := hr.lt
    have hlej := hr.le
    have hlen := hB.len
    obtain ⟨ha, _⟩ := lookup_some hr.found
    obtain ⟨x, hx⟩ : ∃ x, org[j - 1]? = some x := by
      rw [List.getElem?_eq_getElem (show j - 1 < org.length by omega)]
      exact ⟨_, rfl⟩
    have hfree := freeCount_cons E.aliases x a 0 ha (hself (j - 1) (by omega) x hx)
    have e : org = org.take i ++ ((org.take j).drop i ++ org.drop j) := by
      conv => lhs; rw [← List.take_append_drop j org]
      rw [← List.append_assoc]
      congr 1
      have : org.take i = (org.take j).take i := by
        rw [List.take_take]
        congr 1
        omega
      rw [this, List.take_append_drop]
    have hmem : x ∈ (org.take j).drop i := by
      refine List.mem_of_getElem? (i := j - 1 - i) ?_
      rw [List.getElem?_drop, List.getElem?_take, if_pos (by omega), show i + (j - 1 - i) = j - 1 by omega]
      exact hx
    have hw := total_mem E.aliases M _ _ hmem
    have hv : total E.aliases M (valueOrigins a (lastOrigins org j)) + 1 ≤ weight E.aliases M x := by
      have h1 : ∀ os ∈ valueOrigins a (lastOrigins org j), weight E.aliases M os ≤
          (M + 1) ^ (freeCount E.aliases x - 1) := by
        intro os hos
        rw [valueOrigins, List.mem_map] at hos
        obtain ⟨n, _, rfl⟩ := hos
        rw [lastOrigins, hx]
        refine Nat.pow_le_pow_right (Nat.succ_pos M) ?_
        have := freeCount_cons E.aliases x a (a.value.length - 1 - n) ha
          (hself (j - 1) (by omega) x hx)
        simp only [Option.getD_some]
        omega
      have h2 := total_bound _ _ _ _ h1
      rw [valueOrigins_length] at h2
      have h3 : weight E.aliases M x =
          (M + 1) ^ (freeCount E.aliases x - 1) * (M + 1) := by
        rw [← Nat.pow_succ, weight]
        congr 1
        omega
      have h4 := Nat.mul_le_mul_right ((M + 1) ^ (freeCount E.aliases x - 1)) (hM a ha)
      have h5 : 0 < (M + 1) ^ (freeCount E.aliases x - 1) := Nat.pow_pos (Nat.succ_pos M)
      rw [h3, Nat.mul_succ, Nat.mul_comm _ M]
      omega
    rw [e, total_append, total_append] at ih
    rw [List.length_cons, List.length_map, total_append, total_append]
    omega

end Yash.Alias
