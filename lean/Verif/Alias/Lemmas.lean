import Verif.Alias.Spec
/-! # What the functions of the alias list do -/
set_option autoImplicit false

namespace Yash.Alias

open Spec

/-- The item makes the word at `i` an alias candidate (condition (2) in alias.c:226-229). -/
def Significant (blank : Char → Bool) (src : List Char) (i : Nat) (it : Item) : Prop :=
  it.alias.isGlobal = false ∧ endsWithBlank blank it.alias = true ∧
    isBlankRange blank src it.limit i = some true

theorem removeExpired_spec (blank : Char → Bool) (src : List Char) (i : Nat) (l l' : List Item)
    (b : Bool) (h : removeExpired blank src i l = some (l', b)) :
    (∃ pre, l = pre ++ l' ∧ ∀ it ∈ pre, it.limit ≤ i ∧
      (it.alias.isGlobal = false → endsWithBlank blank it.alias = true →
        isBlankRange blank src it.limit i = some false)) ∧
    (b = true → ∃ it rest, l' = it :: rest ∧ it.limit ≤ i ∧ Significant blank src i it) ∧
    (b = false → ∀ it rest, l' = it :: rest → i < it.limit) := by
  induction l generalizing l' b with
  | nil =>
    rw [removeExpired] at h
    cases h
    exact ⟨⟨[], rfl, by simp⟩, by simp, by simp⟩
  | cons it l ih =>
    have key : removeExpired blank src i l = some (l', b) → it.limit ≤ i →
        (it.alias.isGlobal = false → endsWithBlank blank it.alias = true →
          isBlankRange blank src it.limit i = some false) →
        (∃ pre, it :: l = pre ++ l' ∧ ∀ it ∈ pre, it.limit ≤ i ∧
          (it.alias.isGlobal = false → endsWithBlank blank it.alias = true →
            isBlankRange blank src it.limit i = some false)) ∧
        (b = true → ∃ it rest, l' = it :: rest ∧ it.limit ≤ i ∧ Significant blank src i it) ∧
        (b = false → ∀ it rest, l' = it :: rest → i < it.limit) := by
      intro h hle hs
      obtain ⟨⟨pre, hpre, hall⟩, h2, h3⟩ := ih l' b h
      refine ⟨⟨it :: pre, by rw [hpre]; rfl, ?_⟩, h2, h3⟩
      intro x hx
      rcases List.mem_cons.1 hx with rfl | hx
      · exact ⟨hle, hs⟩
      · exact hall x hx
    rw [removeExpired] at h
    by_cases hle : it.limit ≤ i
    · rw [if_pos hle] at h
      by_cases hc : (!it.alias.isGlobal && endsWithBlank blank it.alias) = true
      · rw [if_pos hc] at h
        rw [Bool.and_eq_true, Bool.not_eq_true'] at hc
        match hr : isBlankRange blank src it.limit i with
        | none => rw [hr] at h; cases h
        | some true =>
          rw [hr] at h
          cases h
          exact ⟨⟨[], rfl, by simp⟩, fun _ => ⟨it, l, rfl, hle, hc.1, hc.2, hr⟩, by simp⟩
        | some false =>
          rw [hr] at h
          exact key h hle fun _ _ => hr
      · rw [if_neg hc] at h
        refine key h hle fun h1 h2 => ?_
        rw [h1, h2] at hc
        exact absurd rfl hc
    · rw [if_neg hle] at h
      cases h
      refine ⟨⟨[], rfl, by simp⟩, by simp, ?_⟩
      intro _ x rest hx
      cases hx
      omega

/-- How `shift` moves one item. -/
def shiftItem (i : Nat) (inc : Int) (it : Item) : Item :=
  ⟨it.alias, if i < it.limit then (it.limit + inc).toNat else it.limit⟩

theorem shift_spec (i : Nat) (inc : Int) (l l' : List Item) (h : shift i inc l = some l') :
    l' = l.map (shiftItem i inc) ∧ ∀ it ∈ l, i < it.limit → 0 ≤ (it.limit : Int) + inc := by
  induction l generalizing l' with
  | nil =>
    rw [shift] at h
    cases h
    exact ⟨rfl, by simp⟩
  | cons it l ih =>
    rw [shift] at h
    by_cases hlt : i < it.limit
    · rw [if_pos hlt] at h
      by_cases hc : 0 ≤ inc ∨ -inc ≤ it.limit
      · rw [if_pos hc, Option.map_eq_some_iff] at h
        obtain ⟨l1, h1, rfl⟩ := h
        obtain ⟨e, hall⟩ := ih l1 h1
        refine ⟨?_, ?_⟩
        · rw [List.map_cons, ← e]
          simp only [shiftItem, if_pos hlt]
        · intro x hx hxi
          rcases List.mem_cons.1 hx with rfl | hx
          · omega
          · exact hall x hx hxi
      · rw [if_neg hc] at h
        cases h
    · rw [if_neg hlt, Option.map_eq_some_iff] at h
      obtain ⟨l1, h1, rfl⟩ := h
      obtain ⟨e, hall⟩ := ih l1 h1
      refine ⟨?_, ?_⟩
      · rw [List.map_cons, ← e]
        simp only [shiftItem, if_neg hlt]
      · intro x hx hxi
        rcases List.mem_cons.1 hx with rfl | hx
        · exact absurd hxi hlt
        · exact hall x hx hxi

theorem shift_total (i : Nat) (inc : Int) (l : List Item)
    (h : ∀ it ∈ l, i < it.limit → 0 ≤ (it.limit : Int) + inc) : ∃ l', shift i inc l = some l' := by
  induction l with
  | nil => exact ⟨[], rfl⟩
  | cons it l ih =>
    obtain ⟨l', hl'⟩ := ih fun x hx => h x (List.mem_cons_of_mem _ hx)
    rw [shift]
    by_cases hlt : i < it.limit
    · have := h it (List.mem_cons_self ..) hlt
      rw [if_pos hlt, if_pos (by omega), hl']
      exact ⟨_, rfl⟩
    · rw [if_neg hlt, hl']
      exact ⟨_, rfl⟩

theorem addItem_split (l : List Item) (a : Alias) (n : Nat) :
    ∃ l1 l2, l = l1 ++ l2 ∧ addItem l a n = l1 ++ ⟨a, n⟩ :: l2 ∧ (∀ it ∈ l1, it.limit < n) ∧
      ∀ it rest, l2 = it :: rest → n ≤ it.limit := by
  induction l with
  | nil => exact ⟨[], [], rfl, rfl, by simp, by simp⟩
  | cons it l ih =>
    rw [addItem]
    by_cases hlt : it.limit < n
    · rw [if_pos hlt]
      obtain ⟨l1, l2, e, e', h1, h2⟩ := ih
      refine ⟨it :: l1, l2, by rw [e]; rfl, by rw [e']; rfl, ?_, h2⟩
      intro x hx
      rcases List.mem_cons.1 hx with rfl | hx
      · exact hlt
      · exact h1 x hx
    · rw [if_neg hlt]
      refine ⟨[], it :: l, rfl, rfl, by simp, ?_⟩
      intro x rest hx
      cases hx
      omega

theorem mem_addItem {l : List Item} {a : Alias} {n : Nat} {it : Item} :
    it ∈ addItem l a n ↔ it = ⟨a, n⟩ ∨ it ∈ l := by
  obtain ⟨l1, l2, e, e', _, _⟩ := addItem_split l a n
  rw [e', e]
  simp only [List.mem_append, List.mem_cons]
  constructor
  · rintro (h | h | h)
    · exact .inr (.inl h)
    · exact .inl h
    · exact .inr (.inr h)
  · rintro (h | h | h)
    · exact .inr (.inl h)
    · exact .inl h
    · exact .inr (.inr h)

theorem contained_false {l : List Item} {a : Alias} {i : Nat} :
    contained l a i = false ↔ ∀ it ∈ l, it.alias = a → it.limit < i := by
  rw [contained, List.any_eq_false]
  constructor
  · intro h it hit ha
    have := h it hit
    simp only [ha, beq_self_eq_true, Bool.and_true, decide_eq_true_eq] at this
    omega
  · intro h it hit hc
    simp only [Bool.and_eq_true, decide_eq_true_eq, beq_iff_eq] at hc
    have := h it hit hc.2
    omega

/-! ### One substitution -/

theorem substitute_none {E : Env} {src src' : List Char} {i j : Nat} {l l' : List Item} {f : Flags}
    (h : substituteRange E src i j l f = some (none, src', l')) :
    src' = src ∧ ((l' = l ∧ E.aliases = []) ∨ ∃ b, removeExpired E.blank src i l = some (l', b)) := by
  rw [substituteRange] at h
  by_cases he : E.aliases.isEmpty = true
  · rw [if_pos he] at h
    cases h
    exact ⟨rfl, .inl ⟨rfl, List.isEmpty_iff.1 he⟩⟩
  · rw [if_neg he] at h
    match hr : removeExpired E.blank src i l with
    | none => rw [hr] at h; cases h
    | some (lr, b) =>
      rw [hr] at h
      dsimp only at h
      have : src' = src ∧ l' = lr := by
        rw [substituteFresh] at h
        split at h
        · cases h; exact ⟨rfl, rfl⟩
        split at h
        · cases h; exact ⟨rfl, rfl⟩
        split at h
        · cases h; exact ⟨rfl, rfl⟩
        split at h
        · cases h
        split at h
        · cases h; exact ⟨rfl, rfl⟩
        split at h
        · cases h; exact ⟨rfl, rfl⟩
        split at h
        · cases h; exact ⟨rfl, rfl⟩
        split at h <;> cases h
      exact ⟨this.1, .inr ⟨b, by rw [this.2]⟩⟩

structure Replaced (E : Env) (src src' : List Char) (i j : Nat) (l l' : List Item) (f : Flags)
    (a : Alias) (lr ls : List Item) (b : Bool) : Prop where
  expired : removeExpired E.blank src i l = some (lr, b)
  lt : i < j
  le : j ≤ src.length
  found : lookup E.aliases ((src.take j).drop i) = some a
  allowed : f.nonglobal = true ∨ b = true ∨ (a.isGlobal = true ∧ E.posix = false)
  notEof : ¬(f.noeof = true ∧ j = src.length)
  free : ∀ it ∈ lr, it.alias = a → it.limit < i
  shifted : ls = lr.map (shiftItem i ((a.value.length : Int) - ((j - i : Nat) : Int)))
  nonneg : ∀ it ∈ lr, i < it.limit → 0 ≤ (it.limit : Int) + ((a.value.length : Int) - ((j - i : Nat) : Int))
  src_eq : src' = src.take i ++ a.value ++ src.drop j
  list_eq : l' = addItem ls a (i + a.value.length)

theorem substitute_some {E : Env} {src src' : List Char} {i j : Nat} {l l' : List Item} {f : Flags}
    {a : Alias} (h : substituteRange E src i j l f = some (some a, src', l')) :
    ∃ lr ls b, Replaced E src src' i j l l' f a lr ls b := by
  rw [substituteRange] at h
  by_cases he : E.aliases.isEmpty = true
  · rw [if_pos he] at h
    cases h
  · rw [if_neg he] at h
    match hr : removeExpired E.blank src i l with
    | none => rw [hr] at h; cases h
    | some (lr, b) =>
      rw [hr] at h
      dsimp only at h
      rw [substituteFresh] at h
      split at h
      · cases h
      rename_i h1
      split at h
      · cases h
      rename_i h2
      split at h
      · cases h
      rename_i h3
      split at h
      · cases h
      rename_i h4
      split at h
      · cases h
      rename_i a' h5
      split at h
      · cases h
      rename_i h6
      split at h
      · cases h
      rename_i h7
      split at h
      · cases h
      rename_i ls h8
      cases h
      obtain ⟨hs, hn⟩ := shift_spec _ _ _ _ h8
      refine ⟨lr, ls, b, hr, by omega, by omega, h5, ?_, ?_, ?_, hs, hn, rfl, rfl⟩
      · cases hf : f.nonglobal <;> cases b <;> cases hg : a.isGlobal <;> cases hp : E.posix <;>
          simp_all
      · rintro ⟨h, h'⟩
        rw [h, h'] at h3
        simp at h3
      · exact contained_false.1 (by simpa using h7)

theorem lookup_some {tbl : List Alias} {n : List Char} {a : Alias} (h : lookup tbl n = some a) :
    a ∈ tbl ∧ a.name = n := by
  rw [lookup] at h
  exact ⟨List.mem_of_find?_eq_some h, by simpa using List.find?_some h⟩

theorem lineContinuation_some {src src' : List Char} {l l' : List Item} {k : Nat}
    (h : lineContinuation src l k = some (src', l')) :
    src[k]? = some '\\' ∧ src[k + 1]? = some '\n' ∧ src' = src.take k ++ src.drop (k + 2) ∧
      l' = l.map (shiftItem (k + 1) (-2)) := by
  rw [lineContinuation] at h
  by_cases hc : src[k]? = some '\\' ∧ src[k + 1]? = some '\n'
  · rw [if_pos hc, Option.map_eq_some_iff] at h
    obtain ⟨l1, h1, h2⟩ := h
    cases h2
    exact ⟨hc.1, hc.2, rfl, (shift_spec _ _ _ _ h1).1⟩
  · rw [if_neg hc] at h
    cases h

/-! ### Positions -/

theorem getElem?_removed {α : Type} (l : List α) (k p : Nat) (hk : k ≤ l.length) :
    (l.take k ++ l.drop (k + 2))[p]? = if p < k then l[p]? else l[p + 2]? := by
  by_cases hp : p < k
  · rw [if_pos hp, List.getElem?_append_left (by rw [List.length_take]; omega), List.getElem?_take,
      if_pos hp]
  · rw [if_neg hp, List.getElem?_append_right (by rw [List.length_take]; omega), List.getElem?_drop,
      List.length_take]
    congr 1
    omega

theorem getElem?_replaced {α : Type} (l v : List α) (i j p : Nat) (hij : i ≤ j) (hj : j ≤ l.length) :
    (l.take i ++ v ++ l.drop j)[p]? =
      if p < i then l[p]? else if p < i + v.length then v[p - i]? else l[p - (i + v.length) + j]? := by
  have hl : (l.take i).length = i := by rw [List.length_take]; omega
  by_cases hp : p < i
  · rw [if_pos hp, List.append_assoc, List.getElem?_append_left (by omega), List.getElem?_take,
      if_pos hp]
  · rw [if_neg hp]
    by_cases hp2 : p < i + v.length
    · rw [if_pos hp2, List.getElem?_append_left (by rw [List.length_append]; omega),
        List.getElem?_append_right (by omega), hl]
    · rw [if_neg hp2, List.getElem?_append_right (by rw [List.length_append]; omega),
        List.getElem?_drop, List.length_append, hl]
      congr 1
      omega

theorem valueOrigins_length (a : Alias) (o : List Origin) :
    (valueOrigins a o).length = a.value.length := by
  simp [valueOrigins]

theorem valueOrigins_get (a : Alias) (o : List Origin) (n : Nat) (h : n < a.value.length) :
    (valueOrigins a o)[n]? = some (⟨a, a.value.length - 1 - n⟩ :: o) := by
  simp [valueOrigins, List.getElem?_map, List.getElem?_range h]

end Yash.Alias
