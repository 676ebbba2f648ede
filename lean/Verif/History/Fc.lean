import Verif.History.Find
/-!
# Ranges of entries: `fc`, `history` (C64)
-/
set_option autoImplicit false

namespace Yash.History

open Yash.Spec.History

theorem exists_head_last {l : List Entry} (hne : l ≠ []) : ∃ o w, l.head? = some o ∧ l.getLast? = some w := by
  cases l with
  | nil => exact absurd rfl hne
  | cons x l => exact ⟨x, _, rfl, List.getLast?_eq_some_getLast hne⟩

/-- The order of the numbers of two entries. -/
theorem good_order {P : Params} {l : List Entry} (h : Good P l) {o w : Entry} (ho : l.head? = some o) (hw : l.getLast? = some w) {i j : Nat} {e f : Entry}
    (he : l[i]? = some e) (hf : l[j]? = some f) (hij : i < j) :
    (e.number < f.number ∧ ((o.number ≤ e.number ∧ o.number ≤ f.number) ∨ (e.number ≤ w.number ∧ f.number ≤ w.number))) ∨
    (w.number < o.number ∧ o.number ≤ e.number ∧ f.number ≤ w.number) := by
  have inc : ∀ {S : List Entry} {i j : Nat} {e f : Entry}, (S.map (·.number)).Pairwise (· < ·) → S[i]? = some e → S[j]? = some f → i < j → e.number < f.number := by
    intro S i j e f hS he hf hij
    obtain ⟨hi, rfl⟩ := List.getElem?_eq_some_iff.mp he
    obtain ⟨hj, rfl⟩ := List.getElem?_eq_some_iff.mp hf
    have := List.pairwise_iff_getElem.mp hS i j (by simpa using hi) (by simpa using hj) hij
    simpa using this
  rcases good_cases h ho hw with ⟨how, hp⟩ | ⟨how, a, b, rfl, hoa, hwb, ha, hb, hab, hao, hbw⟩
  · left
    have h1 := le_of_head_mem hp (List.mem_map_of_mem (f := fun e : Entry => e.number) (List.mem_of_getElem? he)) (o := o.number) (by simp [ho])
    have h2 := inc hp he hf hij
    exact ⟨h2, Or.inl ⟨h1, by omega⟩⟩
  · by_cases hja : j < a.length
    · rw [List.getElem?_append_left (by omega)] at he
      rw [List.getElem?_append_left hja] at hf
      have h1 := hao _ (List.mem_of_getElem? he)
      have h2 := hao _ (List.mem_of_getElem? hf)
      exact Or.inl ⟨inc ha he hf hij, Or.inl ⟨h1, h2⟩⟩
    · rw [List.getElem?_append_right (by omega)] at hf
      have h2 := hbw _ (List.mem_of_getElem? hf)
      by_cases hia : i < a.length
      · rw [List.getElem?_append_left hia] at he
        exact Or.inr ⟨how, hao _ (List.mem_of_getElem? he), h2⟩
      · rw [List.getElem?_append_right (by omega)] at he
        exact Or.inl ⟨inc hb he hf (by omega), Or.inr ⟨hbw _ (List.mem_of_getElem? he), h2⟩⟩

theorem good_range {P : Params} {l : List Entry} (h : Good P l) {o w : Entry} (ho : l.head? = some o) (hw : l.getLast? = some w) {e : Entry} (he : e ∈ l) :
    o.number ≤ e.number ∨ e.number ≤ w.number := by
  rcases good_cases h ho hw with ⟨how, hp⟩ | ⟨how, a, b, rfl, hoa, hwb, ha, hb, hab, hao, hbw⟩
  · left
    exact le_of_head_mem hp (List.mem_map_of_mem (f := fun e : Entry => e.number) he) (o := o.number) (by simp [ho])
  · rcases List.mem_append.mp he with he | he
    · exact Or.inl (hao _ he)
    · exact Or.inr (hbw _ he)

/-- The comparison of entries; entries are newer than themselves. -/
theorem entryIsNewer_eq {P : Params} {l : List Entry} (h : Good P l) {i j : Nat} (hi : i < l.length) (hj : j < l.length) : entryIsNewer l i j = some (decide (j ≤ i)) := by
  obtain ⟨o, w, ho, hw⟩ := exists_head_last (l := l) (by rintro rfl; simp at hi)
  have he : l[i]? = some l[i] := List.getElem?_eq_getElem hi
  have hf : l[j]? = some l[j] := List.getElem?_eq_getElem hj
  simp only [entryIsNewer, he, hf, ho, hw, Option.some.injEq]
  rw [Bool.eq_iff_iff]
  simp only [Bool.or_eq_true, Bool.and_eq_true, decide_eq_true_eq]
  rcases Nat.lt_trichotomy i j with hij | rfl | hij
  · have := good_order h ho hw he hf hij
    omega
  · have := good_range h ho hw (List.getElem_mem hi)
    omega
  · have := good_order h ho hw hf he hij
    omega

/-- Places that are in the history. -/
def Valid (l : List Entry) : Place → Prop
  | .before => l ≠ []
  | .after => l ≠ []
  | .entry i => i < l.length
  | .between i => i + 1 < l.length

theorem numberAt_valid {l : List Entry} {n : Nat} {p : Place} (h : NumberAt l n p) : Valid l p := by
  cases p with
  | before => exact numberAt_ne_nil h
  | after => exact numberAt_ne_nil h
  | entry i => obtain ⟨e, he, _⟩ := h; exact (List.getElem?_eq_some_iff.mp he).1
  | between i => obtain ⟨_, e, _, he, _⟩ := h; exact (List.getElem?_eq_some_iff.mp he).1

theorem denotes_valid {l : List Entry} (hne : l ≠ []) {o : Operand} {p : Place} (h : Denotes l o p) : Valid l p := by
  cases h with
  | number _ h => exact numberAt_valid h
  | back hk hkl => simp only [Valid]; omega
  | tooFar _ => exact hne
  | str h => obtain ⟨⟨e, _, he, _⟩, _⟩ := h; exact (List.getElem?_eq_some_iff.mp he).1

/-- The place of a number is unique. -/
theorem numberAt_unique {P : Params} {l : List Entry} (h : Good P l) {n : Nat} {p q : Place} (hp : NumberAt l n p) (hq : NumberAt l n q) : p = q := by
  obtain ⟨o, w, ho, hw⟩ := exists_head_last (numberAt_ne_nil hp)
  have betw : ∀ {i j}, NumberAt l n (.between i) → NumberAt l n (.between j) → ¬ i < j := by
    rintro i j ⟨e1, e2, h1, h2, hl1, hl2⟩ ⟨f1, f2, g1, g2, hm1, hm2⟩ hij
    have r1 := good_range h ho hw (List.mem_of_getElem? h1)
    have r2 := good_range h ho hw (List.mem_of_getElem? h2)
    have r3 := good_range h ho hw (List.mem_of_getElem? g1)
    have r4 := good_range h ho hw (List.mem_of_getElem? g2)
    have o1 := good_order h ho hw h1 h2 (by omega)
    have o2 := good_order h ho hw g1 g2 (by omega)
    by_cases heq : i + 1 = j
    · rw [← heq, h2] at g1
      cases g1
      omega
    · have o3 := good_order h ho hw h2 g1 (by omega)
      have o4 := good_order h ho hw h1 g2 (by omega)
      omega
  have bb : ∀ {i}, NumberAt l n (.between i) → ¬ NumberAt l n .before := by
    rintro i ⟨e1, e2, h1, h2, hl1, hl2⟩ ⟨o', w', ho', hw', hlt, hw2⟩
    rw [ho] at ho'; cases ho'
    rw [hw] at hw'; cases hw'
    have r1 := good_range h ho hw (List.mem_of_getElem? h1)
    have o1 := good_order h ho hw h1 h2 (by omega)
    have r2 := good_range h ho hw (List.mem_of_getElem? h2)
    by_cases how : w.number < o.number
    · have := hw2 how; omega
    · rcases good_cases h ho hw with ⟨_, hp⟩ | ⟨hlt, _⟩
      · have := le_of_head_mem hp (List.mem_map_of_mem (f := fun e : Entry => e.number) (List.mem_of_getElem? h1)) (o := o.number) (by simp [ho])
        omega
      · omega
  have ba : ∀ {i}, NumberAt l n (.between i) → ¬ NumberAt l n .after := by
    rintro i ⟨e1, e2, h1, h2, hl1, hl2⟩ ⟨o', w', ho', hw', hle, hlt⟩
    rw [ho] at ho'; cases ho'
    rw [hw] at hw'; cases hw'
    rcases good_cases h ho hw with ⟨_, hp⟩ | ⟨hlt, _⟩
    · have := le_of_mem_last hp (List.mem_map_of_mem (f := fun e : Entry => e.number) (List.mem_of_getElem? h2)) (w := w.number) (by simp [hw])
      omega
    · omega
  have ab : NumberAt l n .before → ¬ NumberAt l n .after := by
    rintro ⟨o1, w1, ho1, hw1, hlt, _⟩ ⟨o', w', ho', hw', hle, hlt'⟩
    rw [ho1] at ho'; cases ho'
    rw [hw1] at hw'; cases hw'
    omega
  cases p with
  | entry i =>
    cases q with
    | entry j => rw [numberAt_entry_unique h hp hq]
    | between j => exact absurd hp (between_not_entry h hq i)
    | before => exact absurd hp (before_not_entry h hq i)
    | after => exact absurd hp (after_not_entry h hq i)
  | between i =>
    cases q with
    | entry j => exact absurd hq (between_not_entry h hp j)
    | between j =>
      have h1 := betw hp hq
      have h2 := betw hq hp
      have : i = j := by omega
      rw [this]
    | before => exact absurd hq (bb hp)
    | after => exact absurd hq (ba hp)
  | before =>
    cases q with
    | entry j => exact absurd hq (before_not_entry h hp j)
    | between j => exact absurd hp (bb hq)
    | before => rfl
    | after => exact absurd hq (ab hp)
  | after =>
    cases q with
    | entry j => exact absurd hq (after_not_entry h hp j)
    | between j => exact absurd hp (ba hq)
    | before => exact absurd hp (ab hq)
    | after => rfl

theorem numberAt_not_beyond {l : List Entry} {n : Nat} {p : Place} (h : NumberAt l n p) : ¬ Beyond l n := by
  rintro ⟨⟨o, w, ho, hw, how⟩, hn⟩
  have hom := List.mem_of_head? ho
  have hwm := List.mem_of_getLast? hw
  cases p with
  | entry i => obtain ⟨e, he, hen⟩ := h; rcases hn with hn | hn <;> (have := hn e (List.mem_of_getElem? he); omega)
  | between i =>
    obtain ⟨e1, e2, h1, h2, _, _⟩ := h
    rcases hn with hn | hn
    · have := hn e2 (List.mem_of_getElem? h2); omega
    · have := hn e1 (List.mem_of_getElem? h1); omega
  | before =>
    obtain ⟨o', w', ho', hw', hlt, hw2⟩ := h
    rw [ho] at ho'; cases ho'
    rw [hw] at hw'; cases hw'
    have := hw2 how
    rcases hn with hn | hn
    · have := hn o hom; omega
    · have := hn w hwm; omega
  | after =>
    obtain ⟨o', w', ho', hw', hle, hlt⟩ := h
    rw [ho] at ho'; cases ho'
    rw [hw] at hw'; cases hw'
    omega

/-- Operands that `-number` does not overflow for. -/
def Fits (intMax : Nat) : Operand → Prop
  | .number n => -(intMax : Int) ≤ n
  | .str _ => True

theorem ofPlace_isSome {l : List Entry} (p : Place) : (ofPlace l p).prev.isSome || (ofPlace l p).next.isSome := by cases p <;> rfl

/-- An operand is found at the place it denotes. -/
theorem fcSearch_denotes {P : Params} {intMax : Nat} {l : List Entry} (h : Good P l) (hne : l ≠ []) {o : Operand} {p : Place} (hd : Denotes l o p) (hf : Fits intMax o) :
    fcSearch P intMax o l = some (ofPlace l p) := by
  cases hd with
  | @number n p hn hp =>
    obtain ⟨p', hp', hs⟩ := search_place h hne (numberAt_not_beyond hp)
    rw [numberAt_unique h hp hp', fcSearch]
    rw [if_pos (by omega)]
    simp only [Int.toNat_natCast, hs, Option.bind_eq_bind, Option.bind_some]
    rw [if_pos (ofPlace_isSome _)]
  | @back k hk hkl =>
    simp only [Fits] at hf
    rw [fcSearch, if_neg (by omega), if_neg (by omega), if_neg (by omega)]
    simp only [Int.neg_neg, Int.toNat_natCast, nthNewest_back hk hkl]
    simp [ofPlace, Nat.not_lt.mpr hkl]
  | @tooFar k hk =>
    simp only [Fits] at hf
    rw [fcSearch, if_neg (by omega), if_neg (by omega), if_neg (by omega)]
    simp only [Int.neg_neg, Int.toNat_natCast, nthNewest_tooFar hne (Nat.le_of_lt hk)]
    simp [ofPlace, hk]
  | str hs => rw [fcSearch, searchPrefix_some.mpr hs]; rfl

/-! ## Printing -/

theorem slice_cons {l : List Entry} {i j : Nat} (hij : i ≤ j) (hj : j < l.length) : slice l i j = l[i] :: slice l (i + 1) j := by
  rw [slice, List.drop_eq_getElem_cons (by simp; omega)]
  simp [slice]

theorem slice_snoc {l : List Entry} {i j : Nat} (hij : i ≤ j + 1) (hj : j + 1 < l.length) : slice l i (j + 1) = slice l i j ++ [l[j + 1]] := by
  rw [slice, slice, List.take_succ_eq_append_getElem hj, List.drop_append_of_le_length (by simp; omega)]

theorem slice_self {l : List Entry} {i : Nat} (hi : i < l.length) : slice l i i = [l[i]] := by
  rw [slice_cons (Nat.le_refl i) hi, slice, List.drop_eq_nil_of_le (by simp; omega)]

theorem printFrom_forward {l : List Entry} {j : Nat} (hj : j < l.length) : ∀ (fuel i : Nat), i ≤ j → j - i < fuel → printFrom l false j fuel i = some (slice l i j) := by
  intro fuel
  induction fuel with
  | zero => intro i _ h; omega
  | succ fuel ih =>
    intro i hij hf
    rw [printFrom, List.getElem?_eq_getElem (by omega)]
    simp only [Option.bind_eq_bind, Option.bind_some]
    by_cases he : i = j
    · subst he
      rw [if_pos rfl, slice_self hj]
    · rw [if_neg he]
      simp only [Bool.false_and, Bool.false_eq_true, if_false]
      rw [ih (i + 1) (by omega) (by omega)]
      simp only [Option.bind_some]
      rw [← slice_cons hij hj]

theorem printFrom_backward {l : List Entry} {j : Nat} : ∀ (fuel i : Nat), i < l.length → j ≤ i → i - j < fuel → printFrom l true j fuel i = some (slice l j i).reverse := by
  intro fuel
  induction fuel with
  | zero => intro i _ _ h; omega
  | succ fuel ih =>
    intro i hi hij hf
    rw [printFrom, List.getElem?_eq_getElem hi]
    simp only [Option.bind_eq_bind, Option.bind_some]
    by_cases he : i = j
    · subst he
      rw [if_pos rfl, slice_self hi]
      rfl
    · rw [if_neg he]
      obtain ⟨i, rfl⟩ : ∃ k, i = k + 1 := ⟨i - 1, by omega⟩
      simp only [Bool.true_and, decide_eq_true_eq, if_true, Nat.add_sub_cancel, Nat.add_one_ne_zero, if_false]
      rw [ih i (by omega) (by omega) (by omega)]
      simp only [Option.bind_some]
      rw [slice_snoc (by omega) hi]
      simp

theorem printFrom_away {l : List Entry} {j : Nat} : ∀ (fuel i : Nat), j < i → printFrom l false j fuel i = none := by
  intro fuel
  induction fuel with
  | zero => intro i _; rfl
  | succ fuel ih =>
    intro i hij
    rw [printFrom]
    cases l[i]? with
    | none => rfl
    | some e =>
      simp only [Option.bind_eq_bind, Option.bind_some]
      rw [if_neg (by omega)]
      simp only [Bool.false_and, Bool.false_eq_true, if_false]
      rw [ih (i + 1) (by omega)]
      rfl

theorem printFrom_away_back {l : List Entry} {j : Nat} : ∀ (fuel i : Nat), i < j → printFrom l true j fuel i = none := by
  intro fuel
  induction fuel with
  | zero => intro i _; rfl
  | succ fuel ih =>
    intro i hij
    rw [printFrom]
    cases l[i]? with
    | none => rfl
    | some e =>
      simp only [Option.bind_eq_bind, Option.bind_some]
      rw [if_neg (by omega)]
      by_cases h0 : i = 0
      · simp [h0]
      · simp only [Bool.true_and, decide_eq_true_eq, h0, if_false, if_true]
        rw [ih (i - 1) (by omega)]
        rfl

theorem printEntries_slice {l : List Entry} {i j : Nat} (hij : i ≤ j) (hj : j < l.length) (reverse : Bool) :
    printEntries l i j reverse = some (if reverse then (slice l i j).reverse else slice l i j) := by
  cases reverse with
  | false => simp only [printEntries, Bool.false_eq_true, if_false]; exact printFrom_forward hj _ _ hij (by omega)
  | true => simp only [printEntries, if_true]; exact printFrom_backward _ _ hj hij (by omega)

theorem printEntries_away {l : List Entry} {i j : Nat} (hij : j < i) (reverse : Bool) : printEntries l i j reverse = none := by
  cases reverse with
  | false => simp only [printEntries, Bool.false_eq_true, if_false]; exact printFrom_away _ _ hij
  | true => simp only [printEntries, if_true]; exact printFrom_away_back _ _ hij

/-! ## The comparison of places -/

/-- When the code exchanges the two places. -/
def swaps : Place → Place → Bool
  | .before, _ => false
  | _, .after => false
  | .after, _ => true
  | _, .before => true
  | .entry i, .entry j => j ≤ i
  | .entry i, .between j => j ≤ i
  | .between i, .entry j => j ≤ i + 1
  | .between i, .between j => j ≤ i

theorem isNewer_swaps {P : Params} {l : List Entry} (h : Good P l) {p q : Place} (hp : Valid l p) (hq : Valid l q) : isNewer l (ofPlace l p) (ofPlace l q) = some (swaps p q) := by
  cases p with
  | before => rfl
  | after => cases q <;> rfl
  | entry i =>
    simp only [Valid] at hp
    cases q with
    | before => rfl
    | after => rfl
    | entry j =>
      simp only [Valid] at hq
      simp only [isNewer, ofPlace, swaps, entryIsNewer_eq h hp hq, Option.bind_eq_bind, Option.bind_some]
      by_cases hij : j ≤ i <;> simp [hij]
    | between j =>
      simp only [Valid] at hq
      simp only [isNewer, ofPlace, swaps, entryIsNewer_eq h hp (j := j) (by omega), entryIsNewer_eq h hp hq, Option.bind_eq_bind, Option.bind_some]
      by_cases hij : j ≤ i
      · simp [hij]
      · simp [hij]; omega
  | between i =>
    simp only [Valid] at hp
    cases q with
    | before => rfl
    | after => rfl
    | entry j =>
      simp only [Valid] at hq
      simp only [isNewer, ofPlace, swaps, entryIsNewer_eq h (i := i) (by omega) hq, entryIsNewer_eq h hp hq, Option.bind_eq_bind, Option.bind_some]
      by_cases hij : j ≤ i
      · simp [hij]; omega
      · simp [hij]
    | between j =>
      simp only [Valid] at hq
      simp only [isNewer, ofPlace, swaps, entryIsNewer_eq h (i := i) (j := j) (by omega) (by omega), entryIsNewer_eq h hp hq, Option.bind_eq_bind, Option.bind_some]
      by_cases hij : j ≤ i
      · simp [hij]
      · simp [hij]

/-- The entries that are listed, when the two places are known. -/
theorem fcEntries_places {P : Params} {intMax : Nat} {l : List Entry} (h : Good P l) (hne : l ≠ []) {list rev : Bool} {first last : Option Operand} {p q : Place}
    (hp : Valid l p) (hq : Valid l q)
    (hf : fcSearch P intMax (first.getD (.number (if list then -16 else -1))) l = some (ofPlace l p))
    (hl : fcLast P intMax list last (ofPlace l p) l = some (ofPlace l q)) :
    fcEntries P intMax list rev first last l =
      (if swaps p q then (printEntries l (start l q) (stop l p) (!rev)).map fun es => (.success, es)
      else (printEntries l (start l p) (stop l q) rev).map fun es => (.success, es)) := by
  have hs := isNewer_swaps h hp hq
  have hlen : 0 < l.length := by cases l with | nil => exact absurd rfl hne | cons => simp
  have hemp : ¬ l.isEmpty = true := by simpa using hne
  have nn : ∀ p : Place, ((ofPlace l p).prev.isNone && (ofPlace l p).next.isNone) = false := by intro p; cases p <;> rfl
  have hstart : ∀ p : Place, (ofPlace l p).first = some (start l p) := by intro p; cases p <;> rfl
  have hstop : ∀ p : Place, (ofPlace l p).last = some (stop l p) := by intro p; cases p <;> rfl
  rw [fcEntries, if_neg hemp, hf]
  simp only [Option.bind_eq_bind, Option.bind_some, nn, Bool.false_eq_true, if_false, hl, fcPrint, hs]
  cases hsw : swaps p q with
  | true =>
    simp only [if_true, hstart, hstop, Option.bind_some]
    cases printEntries l (start l q) (stop l p) (!rev) <;> rfl
  | false =>
    simp only [Bool.false_eq_true, if_false, hstart, hstop, Option.bind_some]
    cases printEntries l (start l p) (stop l q) rev <;> rfl

theorem swaps_of_le {l : List Entry} {p q : Place} (hp : Valid l p) (hq : Valid l q) (hle : p.le q) (ht : ¬ Touching p q) :
    start l p ≤ stop l q ∧ stop l q < l.length ∧ (swaps p q = true → stop l q = start l p ∧ start l q = stop l p ∧ start l p = start l q) := by
  have hlen : 0 < l.length := by cases l <;> cases p <;> simp_all [Valid]
  cases p <;> cases q <;> simp only [Place.le, Touching, swaps, start, stop, Valid, decide_eq_true_eq, Bool.false_eq_true, false_imp_iff, and_true] at * <;> omega

theorem swaps_of_gt {l : List Entry} {p q : Place} (hp : Valid l p) (hq : Valid l q) (hle : q.le p) (hn : ¬ p.le q) :
    swaps p q = true ∧ start l q ≤ stop l p ∧ stop l p < l.length := by
  have hlen : 0 < l.length := by cases l <;> cases p <;> simp_all [Valid]
  cases p <;> cases q <;> simp only [Place.le, swaps, start, stop, Valid, decide_eq_true_eq, true_and, not_true_eq_false, not_false_eq_true] at * <;> omega

end Yash.History
