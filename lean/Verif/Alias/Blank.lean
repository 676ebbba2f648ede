import Verif.Alias.Inv
/-! # Words that follow a value that ends with a blank -/
set_option autoImplicit false

namespace Yash.Alias

open Spec

theorem isBlankRange_true {blank : Char → Bool} {src : List Char} {fr to : Nat} (h : to ≤ src.length) :
    isBlankRange blank src fr to = some true ↔
      ∀ q c, fr ≤ q → q < to → src[q]? = some c → blank c = true := by
  rw [isBlankRange, if_pos (.inr h)]
  simp only [Option.some.injEq, List.all_eq_true]
  constructor
  · intro hall q c h1 h2 hq
    refine hall c (List.mem_of_getElem? (i := q - fr) ?_)
    rw [List.getElem?_drop, List.getElem?_take, if_pos (by omega), show fr + (q - fr) = q by omega]
    exact hq
  · intro hall c hc
    obtain ⟨n, hn⟩ := List.getElem?_of_mem hc
    rw [List.getElem?_drop, List.getElem?_take] at hn
    by_cases hlt : fr + n < to
    · rw [if_pos hlt] at hn
      exact hall _ c (by omega) hlt hn
    · rw [if_neg hlt] at hn
      cases hn

theorem isBlankRange_false {blank : Char → Bool} {src : List Char} {fr to : Nat} (h : to ≤ src.length) :
    isBlankRange blank src fr to = some false ↔
      ∃ q c, fr ≤ q ∧ q < to ∧ src[q]? = some c ∧ blank c = false := by
  have hT := isBlankRange_true (blank := blank) (fr := fr) h
  constructor
  · intro hf
    refine Classical.byContradiction fun hne => ?_
    have : isBlankRange blank src fr to = some true := by
      refine hT.2 fun q c h1 h2 h3 => ?_
      cases hb : blank c with
      | true => rfl
      | false => exact absurd ⟨q, c, h1, h2, h3, hb⟩ hne
    rw [hf] at this
    cases this
  · rintro ⟨q, c, h1, h2, h3, h4⟩
    cases hr : isBlankRange blank src fr to with
    | none => rw [isBlankRange, if_pos (.inr h)] at hr; cases hr
    | some b =>
      cases b with
      | false => rfl
      | true =>
        have := hT.1 hr q c h1 h2 h3
        rw [h4] at this
        cases this

theorem endsWithBlank_iff {blank : Char → Bool} {a : Alias} :
    endsWithBlank blank a = true ↔ ∃ c, a.value.getLast? = some c ∧ blank c = true := by
  rw [endsWithBlank]
  cases a.value.getLast? with
  | none => simp
  | some c => simp

/-- What the list knows about the values that end with a blank. -/
structure Ends (E : Env) (src : List Char) (org : List (List Origin)) (l : List Item) (cur : Nat) :
    Prop where
  bound : cur ≤ src.length
  item : ∀ it ∈ l, endsWithBlank E.blank it.alias = true → 0 < it.limit ∧
    (∃ c, src[it.limit - 1]? = some c ∧ E.blank c = true) ∧
    ∃ os, org[it.limit - 1]? = some os ∧ (⟨it.alias, 0⟩ : Origin) ∈ os
  tag : ∀ (p : Nat) (os : List Origin) (a : Alias), org[p]? = some os → (⟨a, 0⟩ : Origin) ∈ os → endsWithBlank E.blank a = true →
    ∃ c, src[p]? = some c ∧ E.blank c = true
  kept : ∀ (p : Nat) (os : List Origin) (a : Alias), org[p]? = some os → (⟨a, 0⟩ : Origin) ∈ os → a.isGlobal = false →
    endsWithBlank E.blank a = true → (∃ it ∈ l, it.alias = a ∧ it.limit = p + 1) ∨
      ∃ (q : Nat) (c : Char), p < q ∧ q < cur ∧ src[q]? = some c ∧ E.blank c = false
  order : l.Pairwise fun x y => endsWithBlank E.blank y.alias = true → x.limit ≤ y.limit

theorem ends_expired {E : Env} {src : List Char} {org : List (List Origin)} {l l' : List Item}
    {cur i : Nat} {b : Bool} (hE : Ends E src org l cur) (hi : cur ≤ i) (hle : i ≤ src.length)
    (h : removeExpired E.blank src i l = some (l', b)) :
    Ends E src org l' i ∧ (b = true ↔ FollowsBlank E src org i) := by
  obtain ⟨⟨pre, e, hall⟩, hT, hF⟩ := removeExpired_spec _ _ _ _ _ _ h
  have hsub : ∀ it ∈ l', it ∈ l := by
    intro it hit
    rw [e]
    exact List.mem_append_right _ hit
  have hE' : Ends E src org l' i := by
    refine ⟨hle, fun it hit => hE.item it (hsub it hit), hE.tag, ?_, ?_⟩
    · intro p os a hos ho hg hb
      rcases hE.kept p os a hos ho hg hb with ⟨it, hit, ha, hl⟩ | ⟨q, c, h1, h2, h3, h4⟩
      · rw [e, List.mem_append] at hit
        rcases hit with hit | hit
        · right
          obtain ⟨h1, h2⟩ := hall it hit
          have := h2 (by rw [ha]; exact hg) (by rw [ha]; exact hb)
          obtain ⟨q, c, h3, h4, h5, h6⟩ := (isBlankRange_false hle).1 this
          exact ⟨q, c, by omega, h4, h5, h6⟩
        · exact .inl ⟨it, hit, ha, hl⟩
      · exact .inr ⟨q, c, h1, by omega, h3, h4⟩
    · have := hE.order
      rw [e, List.pairwise_append] at this
      exact this.2.1
  refine ⟨hE', ?_⟩
  constructor
  · intro hb
    obtain ⟨it, rest, e2, hlim, hg, hbl, hr⟩ := hT hb
    obtain ⟨hpos, ⟨c, hc, hbc⟩, os, hos, ho⟩ := hE'.item it (by rw [e2]; exact List.mem_cons_self ..) hbl
    refine ⟨it.limit - 1, it.alias, os, by omega, hos, ho, hg, endsWithBlank_iff.1 hbl, ?_⟩
    intro q c h1 h2 h3
    exact (isBlankRange_true hle).1 hr q c (by omega) h2 h3
  · rintro ⟨p, a, os, hp, hos, ho, hg, hb, hall2⟩
    rcases hE'.kept p os a hos ho hg (endsWithBlank_iff.2 hb) with ⟨it, hit, ha, hl⟩ | ⟨q, c, h1, h2, h3, h4⟩
    · cases b with
      | true => rfl
      | false =>
        exfalso
        have hord := hE'.order
        cases hl' : l' with
        | nil => rw [hl'] at hit; cases hit
        | cons x rest =>
          have hx := hF rfl x rest hl'
          rw [hl'] at hit hord
          rcases List.mem_cons.1 hit with rfl | hit
          · omega
          · have := (List.pairwise_cons.1 hord).1 it hit (by rw [ha]; exact endsWithBlank_iff.2 hb)
            omega
    · have := hall2 q c h1 h2 h3
      rw [h4] at this
      cases this

/-- Alias names consist of characters that are not blank (`is_alias_name_char`, alias.c:110-113),
and the two characters of a line continuation are not blank. -/
structure Sane (E : Env) : Prop where
  name : ∀ a ∈ E.aliases, ∀ c ∈ a.name, E.blank c = false
  backslash : E.blank '\\' = false
  newline : E.blank '\n' = false

theorem ends_reading {E : Env} {cc : Bool} {src : List Char} {org : List (List Origin)}
    {l : List Item} {cur input : Nat} {used : List (Alias × Nat)} (hS : Sane E)
    (h : Reading E cc src org l cur input used) : Ends E src org l cur := by
  induction h with
  | start => exact ⟨Nat.le_refl _, by simp, by simp, by simp, .nil⟩
  | more t hR ih =>
    rename_i src org l cur input used
    have hlen := (blocks_reading hR).len
    have horg : ∀ (p : Nat) (os : List Origin) (a : Alias), (org ++ List.replicate t.length [])[p]? = some os →
        (⟨a, 0⟩ : Origin) ∈ os → org[p]? = some os := by
      intro p os a hos ho
      rw [List.getElem?_append] at hos
      split at hos
      · exact hos
      · rw [List.getElem?_replicate] at hos
        split at hos
        · cases hos
          cases ho
        · cases hos
    have hsrc : ∀ (p : Nat) (c : Char), src[p]? = some c → (src ++ t)[p]? = some c := by
      intro p c hc
      rw [List.getElem?_append_left (List.getElem?_eq_some_iff.1 hc).1]
      exact hc
    refine ⟨?_, ?_, ?_, ?_, ih.order⟩
    · have := ih.bound
      rw [List.length_append]
      omega
    · intro it hit hb
      obtain ⟨h1, ⟨c, h2, h3⟩, os, h4, h5⟩ := ih.item it hit hb
      refine ⟨h1, ⟨c, hsrc _ _ h2, h3⟩, os, ?_, h5⟩
      rw [List.getElem?_append_left (List.getElem?_eq_some_iff.1 h4).1]
      exact h4
    · intro p os a hos ho hb
      obtain ⟨c, h1, h2⟩ := ih.tag p os a (horg p os a hos ho) ho hb
      exact ⟨c, hsrc _ _ h1, h2⟩
    · intro p os a hos ho hg hb
      rcases ih.kept p os a (horg p os a hos ho) ho hg hb with h | ⟨q, c, h1, h2, h3, h4⟩
      · exact .inl h
      · exact .inr ⟨q, c, h1, h2, hsrc _ _ h3, h4⟩
  | continuation k hR hc hk h ih =>
    rename_i src org l cur input used src' l'
    have hlen := (blocks_reading hR).len
    obtain ⟨hk1, hk2, rfl, rfl⟩ := lineContinuation_some h
    have hkl : k + 1 < src.length := (List.getElem?_eq_some_iff.1 hk2).1
    -- an item for a value that ends with a blank does not end in the continuation
    have hlim : ∀ it ∈ l, endsWithBlank E.blank it.alias = true → it.limit ≤ k ∨ k + 3 ≤ it.limit := by
      intro it hit hb
      obtain ⟨h1, ⟨c, h2, h3⟩, _⟩ := ih.item it hit hb
      rcases Nat.lt_or_ge k it.limit with hlt | hge
      · right
        have n1 : it.limit - 1 ≠ k := by
          intro he
          rw [he, hk1] at h2
          cases h2
          rw [hS.backslash] at h3
          cases h3
        have n2 : it.limit - 1 ≠ k + 1 := by
          intro he
          rw [he, hk2] at h2
          cases h2
          rw [hS.newline] at h3
          cases h3
        omega
      · exact .inl hge
    have hkorg : k ≤ org.length := by omega
    refine ⟨?_, ?_, ?_, ?_, ?_⟩
    · have := ih.bound
      rw [List.length_append, List.length_take, List.length_drop]
      omega
    · intro it hit hb
      obtain ⟨it0, hit0, rfl⟩ := List.mem_map.1 hit
      have hb0 : endsWithBlank E.blank it0.alias = true := hb
      obtain ⟨h1, ⟨c, h2, h3⟩, os, h4, h5⟩ := ih.item it0 hit0 hb0
      rcases hlim it0 hit0 hb0 with hle | hge
      · have e : (shiftItem (k + 1) (-2) it0).limit = it0.limit := by
          simp only [shiftItem]
          rw [if_neg (by omega)]
        rw [e, getElem?_removed _ _ _ (by omega), getElem?_removed _ _ _ hkorg, if_pos (by omega),
          if_pos (by omega)]
        exact ⟨h1, ⟨c, h2, h3⟩, os, h4, h5⟩
      · have e : (shiftItem (k + 1) (-2) it0).limit = it0.limit - 2 := by
          simp only [shiftItem]
          rw [if_pos (by omega)]
          omega
        rw [e, getElem?_removed _ _ _ (by omega), getElem?_removed _ _ _ hkorg, if_neg (by omega),
          if_neg (by omega), show it0.limit - 2 - 1 + 2 = it0.limit - 1 by omega]
        exact ⟨by omega, ⟨c, h2, h3⟩, os, h4, h5⟩
    · intro p os a hos ho hb
      rw [getElem?_removed _ _ _ hkorg] at hos
      rw [getElem?_removed _ _ _ (by omega)]
      by_cases hpk : p < k
      · rw [if_pos hpk] at hos ⊢
        exact ih.tag p os a hos ho hb
      · rw [if_neg hpk] at hos ⊢
        exact ih.tag _ os a hos ho hb
    · intro p os a hos ho hg hb
      rw [getElem?_removed _ _ _ hkorg] at hos
      by_cases hpk : p < k
      · rw [if_pos hpk] at hos
        rcases ih.kept p os a hos ho hg hb with ⟨it, hit, ha, hl⟩ | ⟨q, c, h1, h2, h3, h4⟩
        · refine .inl ⟨_, List.mem_map_of_mem hit, ha, ?_⟩
          simp only [shiftItem]
          rw [if_neg (by omega)]
          exact hl
        · refine .inr ⟨q, c, h1, h2, ?_, h4⟩
          rw [getElem?_removed _ _ _ (by omega), if_pos (by omega)]
          exact h3
      · rw [if_neg hpk] at hos
        rcases ih.kept (p + 2) os a hos ho hg hb with ⟨it, hit, ha, hl⟩ | ⟨q, c, h1, h2, h3, h4⟩
        · refine .inl ⟨_, List.mem_map_of_mem hit, ha, ?_⟩
          simp only [shiftItem]
          rw [if_pos (by omega), hl]
          omega
        · omega
    · rw [List.pairwise_map]
      refine ih.order.imp_of_mem ?_
      intro x y hx hy hxy hb
      have hb0 : endsWithBlank E.blank y.alias = true := hb
      have h1 := hxy hb0
      have h2 := hlim y hy hb0
      simp only [shiftItem]
      split <;> split <;> omega
  | keep i j f hR hi hle h ih =>
    obtain ⟨rfl, ⟨rfl, he⟩ | ⟨b, hb⟩⟩ := substitute_none h
    · refine ⟨hle, ih.item, ih.tag, ?_, ih.order⟩
      intro p os a hos ho hg hb
      rcases ih.kept p os a hos ho hg hb with h | ⟨q, c, h1, h2, h3, h4⟩
      · exact .inl h
      · exact .inr ⟨q, c, h1, by omega, h3, h4⟩
    · exact (ends_expired ih hi hle hb).1
  | replace i j f hR hi hle h ih =>
    rename_i src org l cur input used a src' l'
    have hlen := (blocks_reading hR).len
    obtain ⟨lr, ls, b, hr⟩ := substitute_some h
    have hE := (ends_expired ih hi hle hr.expired).1
    have hlt := hr.lt
    have hlej := hr.le
    obtain ⟨hmem, hname⟩ := lookup_some hr.found
    have hword : ∀ p c, i ≤ p → p < j → src[p]? = some c → E.blank c = false := by
      intro p c h1 h2 h3
      refine hS.name a hmem c ?_
      rw [hname]
      refine List.mem_of_getElem? (i := p - i) ?_
      rw [List.getElem?_drop, List.getElem?_take, if_pos (by omega), show i + (p - i) = p by omega]
      exact h3
    have hlim : ∀ it ∈ lr, endsWithBlank E.blank it.alias = true → it.limit ≤ i ∨ j < it.limit := by
      intro it hit hb
      obtain ⟨h1, ⟨c, h2, h3⟩, _⟩ := hE.item it hit hb
      rcases Nat.lt_or_ge i it.limit with hlt | hge
      · right
        rcases Nat.lt_or_ge j it.limit with h | h
        · exact h
        · have := hword (it.limit - 1) c (by omega) (by omega) h2
          rw [h3] at this
          cases this
      · exact .inl hge
    rw [hr.src_eq, hr.list_eq, hr.shifted]
    have gsrc := fun p => getElem?_replaced src a.value i j p (by omega) (by omega)
    have gorg := fun p => getElem?_replaced org (valueOrigins a (lastOrigins org j)) i j p
      (by omega) (by omega)
    simp only [valueOrigins_length] at gorg
    have lastTag : ∀ b : Alias, (⟨b, 0⟩ : Origin) ∈ lastOrigins org j →
        endsWithBlank E.blank b = true → False := by
      intro b ho hb
      obtain ⟨x, hx⟩ : ∃ x, org[j - 1]? = some x := by
        rw [List.getElem?_eq_getElem (show j - 1 < org.length by omega)]
        exact ⟨_, rfl⟩
      rw [lastOrigins, hx] at ho
      obtain ⟨c, h1, h2⟩ := ih.tag (j - 1) x b hx ho hb
      have := hword (j - 1) c (by omega) (by omega) h1
      rw [h2] at this
      cases this
    have shl : ∀ it : Item, j < it.limit →
        (shiftItem i ((a.value.length : Int) - ((j - i : Nat) : Int)) it).limit =
          it.limit + a.value.length - (j - i) := by
      intro it hj
      simp only [shiftItem]
      rw [if_pos (by omega)]
      omega
    have shle : ∀ it : Item, it.limit ≤ i →
        (shiftItem i ((a.value.length : Int) - ((j - i : Nat) : Int)) it).limit = it.limit := by
      intro it hj
      simp only [shiftItem]
      rw [if_neg (by omega)]
    refine ⟨?_, ?_, ?_, ?_, ?_⟩
    · simp only [List.length_append, List.length_take]
      omega
    · intro it hit hb
      rcases mem_addItem.1 hit with rfl | hit
      · obtain ⟨c, hc, hbc⟩ := endsWithBlank_iff.1 hb
        have hne : a.value.length ≠ 0 := by
          intro h0
          rw [List.length_eq_zero_iff.1 h0] at hc
          cases hc
        refine ⟨by show 0 < i + a.value.length; omega, ⟨c, ?_, hbc⟩, ⟨a, 0⟩ :: lastOrigins org j, ?_, ?_⟩
        · rw [gsrc, if_neg (by dsimp only; omega), if_pos (by dsimp only; omega),
            show i + a.value.length - 1 - i = a.value.length - 1 by omega, ← List.getLast?_eq_getElem?]
          exact hc
        · rw [gorg, if_neg (by dsimp only; omega), if_pos (by dsimp only; omega),
            valueOrigins_get _ _ _ (by dsimp only; omega),
            show a.value.length - 1 - (i + a.value.length - 1 - i) = 0 by omega]
        · exact List.mem_cons_self ..
      · obtain ⟨it0, hit0, rfl⟩ := List.mem_map.1 hit
        have hb0 : endsWithBlank E.blank it0.alias = true := hb
        obtain ⟨h1, ⟨c, h2, h3⟩, os, h4, h5⟩ := hE.item it0 hit0 hb0
        rcases hlim it0 hit0 hb0 with hle' | hgt
        · rw [shle it0 hle', gsrc, gorg, if_pos (by omega), if_pos (by omega)]
          exact ⟨h1, ⟨c, h2, h3⟩, os, h4, h5⟩
        · rw [shl it0 hgt, gsrc, gorg, if_neg (by omega), if_neg (by omega), if_neg (by omega),
            if_neg (by omega),
            show it0.limit + a.value.length - (j - i) - 1 - (i + a.value.length) + j = it0.limit - 1 by
              omega]
          exact ⟨by omega, ⟨c, h2, h3⟩, os, h4, h5⟩
    · intro p os b hos ho hb
      rw [gorg] at hos
      rw [gsrc]
      by_cases hp : p < i
      · rw [if_pos hp] at hos ⊢
        exact ih.tag p os b hos ho hb
      · rw [if_neg hp] at hos ⊢
        by_cases hp2 : p < i + a.value.length
        · rw [if_pos hp2] at hos ⊢
          rw [valueOrigins_get _ _ _ (by omega)] at hos
          cases hos
          rcases List.mem_cons.1 ho with ho | ho
          · injection ho with h1 h2
            subst h1
            obtain ⟨c, hc, hbc⟩ := endsWithBlank_iff.1 hb
            refine ⟨c, ?_, hbc⟩
            rw [show p - i = b.value.length - 1 by omega, ← List.getLast?_eq_getElem?]
            exact hc
          · exact absurd hb (fun hb => lastTag b ho hb)
        · rw [if_neg hp2] at hos ⊢
          exact ih.tag _ os b hos ho hb
    · intro p os b hos ho hg hb
      rw [gorg] at hos
      by_cases hp : p < i
      · rw [if_pos hp] at hos
        rcases hE.kept p os b hos ho hg hb with ⟨it, hit, ha, hl⟩ | ⟨q, c, h1, h2, h3, h4⟩
        · refine .inl ⟨_, mem_addItem.2 (.inr (List.mem_map_of_mem hit)), ha, ?_⟩
          rw [shle it (by omega)]
          exact hl
        · refine .inr ⟨q, c, h1, h2, ?_, h4⟩
          rw [gsrc, if_pos h2]
          exact h3
      · rw [if_neg hp] at hos
        by_cases hp2 : p < i + a.value.length
        · rw [if_pos hp2, valueOrigins_get _ _ _ (by omega)] at hos
          cases hos
          rcases List.mem_cons.1 ho with ho | ho
          · injection ho with h1 h2
            refine .inl ⟨_, mem_addItem.2 (.inl rfl), h1.symm, ?_⟩
            show i + a.value.length = p + 1
            omega
          · exact absurd hb (fun hb => lastTag b ho hb)
        · rw [if_neg hp2] at hos
          rcases hE.kept _ os b hos ho hg hb with ⟨it, hit, ha, hl⟩ | ⟨q, c, h1, h2, h3, h4⟩
          · refine .inl ⟨_, mem_addItem.2 (.inr (List.mem_map_of_mem hit)), ha, ?_⟩
            rw [shl it (by omega), hl]
            omega
          · omega
    · have hord : (lr.map (shiftItem i ((a.value.length : Int) - ((j - i : Nat) : Int)))).Pairwise
          fun x y => endsWithBlank E.blank y.alias = true → x.limit ≤ y.limit := by
        rw [List.pairwise_map]
        refine hE.order.imp_of_mem ?_
        intro x y hx hy hxy hb
        have hb0 : endsWithBlank E.blank y.alias = true := hb
        have h1 := hxy hb0
        have h2 := hlim y hy hb0
        simp only [shiftItem]
        split <;> split <;> omega
      obtain ⟨l1, l2, e, e', h1, h2⟩ := addItem_split
        (lr.map (shiftItem i ((a.value.length : Int) - ((j - i : Nat) : Int)))) a (i + a.value.length)
      rw [e']
      rw [e, List.pairwise_append] at hord
      rw [List.pairwise_append, List.pairwise_cons]
      refine ⟨hord.1, ⟨?_, hord.2.1⟩, ?_⟩
      · intro y hy hb
        cases hl2 : l2 with
        | nil => rw [hl2] at hy; cases hy
        | cons z rest =>
          have hz := h2 z rest hl2
          have hp := hord.2.1
          rw [hl2] at hy hp
          show i + a.value.length ≤ y.limit
          rcases List.mem_cons.1 hy with rfl | hy
          · exact hz
          · have := (List.pairwise_cons.1 hp).1 y hy hb
            omega
      · intro x hx y hy hb
        rcases List.mem_cons.1 hy with rfl | hy
        · have := h1 x hx
          show x.limit ≤ i + a.value.length
          omega
        · exact hord.2.2 x hx y hy hb

/-! ### Ends of values when there are no line continuations -/

theorem used_reading {E : Env} {src : List Char} {org : List (List Origin)}
    {l : List Item} {cur input : Nat} {used : List (Alias × Nat)}
    (h : Reading E false src org l cur input used) : ∀ it ∈ l, (it.alias, it.limit) ∈ used := by
  generalize hcc : false = cc at h
  induction h with
  | start => simp
  | more t hR ih => exact ih
  | continuation k hR hc hk h ih =>
    rw [← hcc] at hc
    cases hc
  | keep i j f hR hi hle h ih =>
    obtain ⟨rfl, ⟨rfl, he⟩ | ⟨b, hb⟩⟩ := substitute_none h
    · exact ih
    · obtain ⟨⟨pre, e, _⟩, _, _⟩ := removeExpired_spec _ _ _ _ _ _ hb
      intro it hit
      exact ih it (by rw [e]; exact List.mem_append_right _ hit)
  | replace i j f hR hi hle h ih =>
    rename_i src org l cur input used a src' l'
    obtain ⟨lr, ls, b, hr⟩ := substitute_some h
    obtain ⟨⟨pre, e, _⟩, _, _⟩ := removeExpired_spec _ _ _ _ _ _ hr.expired
    intro it hit
    rw [hr.list_eq, hr.shifted] at hit
    rcases mem_addItem.1 hit with rfl | hit
    · exact List.mem_cons_self ..
    · obtain ⟨it0, hit0, rfl⟩ := List.mem_map.1 hit
      refine List.mem_cons_of_mem _ (List.mem_map.2 ⟨(it0.alias, it0.limit), ?_, ?_⟩)
      · exact ih it0 (by rw [e]; exact List.mem_append_right _ hit0)
      · simp only [shiftItem, moved, Prod.mk.injEq, true_and]
        split
        · have := hr.nonneg it0 hit0 (by omega)
          omega
        · rfl

end Yash.Alias
