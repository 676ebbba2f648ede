import Verif.Variable.ArrayModel
/-!
# C28: `shift` and `array` are operations on lists
-/
set_option autoImplicit false

namespace Yash.Variable

namespace Spec

/-- The index operand `i` of `array` means the element at position `p` (counted from 0) of an array
of `len` elements: positive indices count from the first element, negative ones from the last. -/
def Designates (len : Nat) (i : Int) (p : Nat) : Prop :=
  p < len ∧ (i = (p : Int) + 1 ∨ i = (p : Int) - len)

instance (len : Nat) (i : Int) (p : Nat) : Decidable (Designates len i p) :=
  inferInstanceAs (Decidable (_ ∧ _))

/-- The elements of `vs`, the first of which is at position `p`, whose position is not designated by
any of the indices. -/
def survivors (len : Nat) (is : List Int) : Nat → List Word → List Word
  | _, [] => []
  | p, v :: vs =>
    if ∃ i ∈ is, Designates len i p then survivors len is (p + 1) vs
    else v :: survivors len is (p + 1) vs

end Spec

open Spec

/-! ### Lemmas -/

theorem insertSorted_mem (i : Int) (js : List Int) (x : Int) :
    x ∈ insertSorted i js ↔ x = i ∨ x ∈ js := by
  induction js with
  | nil => simp [insertSorted]
  | cons j js ih =>
    rw [insertSorted]
    split
    · simp
    · simp only [List.mem_cons, ih]
      constructor
      · rintro (h | h | h)
        · exact Or.inr (Or.inl h)
        · exact Or.inl h
        · exact Or.inr (Or.inr h)
      · rintro (h | h | h)
        · exact Or.inr (Or.inl h)
        · exact Or.inl h
        · exact Or.inr (Or.inr h)

theorem insertSorted_sorted (i : Int) (js : List Int) (h : js.Pairwise (· ≤ ·)) :
    (insertSorted i js).Pairwise (· ≤ ·) := by
  induction js with
  | nil => simp [insertSorted]
  | cons j js ih =>
    rw [List.pairwise_cons] at h
    rw [insertSorted]
    split
    · rename_i hij
      rw [List.pairwise_cons]
      refine ⟨fun a ha => ?_, List.pairwise_cons.mpr h⟩
      rw [List.mem_cons] at ha
      rcases ha with rfl | ha
      · exact hij
      · exact Int.le_trans hij (h.1 a ha)
    · rename_i hij
      rw [List.pairwise_cons]
      refine ⟨fun a ha => ?_, ih h.2⟩
      rw [insertSorted_mem] at ha
      rcases ha with rfl | ha
      · omega
      · exact h.1 a ha

theorem sortInts_mem (is : List Int) (x : Int) : x ∈ sortInts is ↔ x ∈ is := by
  induction is with
  | nil => simp [sortInts]
  | cons i is ih => simp [sortInts, insertSorted_mem, ih]

theorem sortInts_sorted (is : List Int) : (sortInts is).Pairwise (· ≤ ·) := by
  induction is with
  | nil => simp [sortInts]
  | cons i is ih => exact insertSorted_sorted i _ ih

/-- The elements at positions that are not in a list, where the first position is `p`. -/
def keep (ps : List Int) : Nat → List Word → List Word
  | _, [] => []
  | p, v :: vs => if (p : Int) ∈ ps then keep ps (p + 1) vs else v :: keep ps (p + 1) vs

theorem keep_congr (ps qs : List Int) (l : List Word) : ∀ p : Nat,
    (∀ q : Nat, p ≤ q → q < p + l.length → ((q : Int) ∈ ps ↔ (q : Int) ∈ qs)) →
    keep ps p l = keep qs p l := by
  induction l with
  | nil => intro p _; rfl
  | cons v l ih =>
    intro p h
    have h1 := h p (Nat.le_refl p) (by simp)
    have h2 := ih (p + 1) (fun q hq hq' => h q (by omega) (by simp only [List.length_cons]; omega))
    rw [keep, keep, h2]
    by_cases hp : (p : Int) ∈ ps
    · rw [if_pos hp, if_pos (h1.mp hp)]
    · rw [if_neg hp, if_neg (fun hc => hp (h1.mpr hc))]

theorem keep_nil (l : List Word) (p : Nat) : keep [] p l = l := by
  induction l generalizing p with
  | nil => rfl
  | cons v l ih => simp [keep, ih]

theorem keep_append (ps : List Int) (a b : List Word) (p : Nat) :
    keep ps p (a ++ b) = keep ps p a ++ keep ps (p + a.length) b := by
  induction a generalizing p with
  | nil => simp [keep]
  | cons v a ih =>
    simp only [List.cons_append, keep, ih, List.length_cons]
    rw [show p + 1 + a.length = p + (a.length + 1) from by omega]
    split
    · rfl
    · rfl

/-- Removing the largest position first. -/
theorem keep_erase (ps : List Int) (l : List Word) (i : Nat) (hi : i < l.length)
    (hp : ∀ j ∈ ps, j < (i : Int)) :
    keep ps 0 (l.eraseIdx i) = keep ((i : Int) :: ps) 0 l := by
  have hl : l = l.take i ++ l[i] :: l.drop (i + 1) := by
    rw [List.getElem_cons_drop, List.take_append_drop]
  have hlen : (l.take i).length = i := by
    rw [List.length_take]
    omega
  have hnot : ∀ (qs : List Int) (m : List Word) (p : Nat), (∀ j ∈ qs, j < (p : Int)) →
      keep qs p m = m := by
    intro qs m p hq
    rw [keep_congr qs [] m p, keep_nil]
    intro q hq1 _
    constructor
    · intro h
      have := hq _ h
      omega
    · intro h; cases h
  rw [List.eraseIdx_eq_take_drop_succ]
  conv => rhs; rw [hl]
  rw [keep_append, keep_append, hlen, Nat.zero_add, keep, if_pos (List.mem_cons_self)]
  congr 1
  · refine keep_congr _ _ _ 0 fun q _ hq => ?_
    rw [List.mem_cons]
    constructor
    · exact Or.inr
    · rintro (h | h)
      · omega
      · exact h
  · rw [hnot _ _ (i + 1) (fun j hj => ?_), hnot _ _ i hp]
    rw [List.mem_cons] at hj
    rcases hj with rfl | hj
    · omega
    · have := hp j hj
      omega

theorem removeLoop_keep (is : List Int) (last : Option Int) (l : List Word)
    (hd : is.Pairwise (· ≥ ·)) (hlast : ∀ x, last = some x → ∀ j ∈ is, j ≤ x) :
    removeLoop is last l = keep (is.filter fun j => decide (last ≠ some j)) 0 l := by
  induction is generalizing last l with
  | nil => simp [removeLoop, keep_nil]
  | cons i is ih =>
    rw [List.pairwise_cons] at hd
    rw [removeLoop]
    by_cases hli : last = some i
    · rw [if_pos hli, ih last l hd.2 (fun x hx j hj => hlast x hx j (List.mem_cons_of_mem _ hj)),
        List.filter_cons, if_neg (by simp [hli])]
    · rw [if_neg hli, List.filter_cons,
        if_pos (c := decide (last ≠ some i) = true) (by simpa using hli)]
      have hall : is.filter (fun j => decide (last ≠ some j)) = is := by
        rw [List.filter_eq_self]
        intro j hj
        simp only [ne_eq, decide_not, Bool.not_eq_true', decide_eq_false_iff_not]
        intro hx
        have h1 := hlast j hx i List.mem_cons_self
        have h2 := hd.1 j hj
        exact hli (by rw [hx, show j = i from by omega])
      rw [hall]
      have hle : ∀ x, some i = some x → ∀ j ∈ is, j ≤ x := by
        intro x hx j hj
        cases hx
        exact hd.1 j hj
      by_cases hr : 0 ≤ i ∧ i < (l.length : Int)
      · rw [if_pos hr, ih (some i) _ hd.2 hle]
        have hcast : ((i.toNat : Nat) : Int) = i := Int.toNat_of_nonneg hr.1
        rw [keep_erase _ _ _ (by omega) ?_]
        · refine keep_congr _ _ _ 0 fun q _ _ => ?_
          rw [hcast, List.mem_cons, List.mem_cons, List.mem_filter]
          constructor
          · rintro (h | ⟨h, _⟩)
            · exact Or.inl h
            · exact Or.inr h
          · rintro (h | h)
            · exact Or.inl h
            · by_cases hq : (q : Int) = i
              · exact Or.inl hq
              · exact Or.inr ⟨h, by simpa using fun hc => hq hc.symm⟩
        · intro j hj
          rw [List.mem_filter] at hj
          have h1 := hd.1 j hj.1
          have h2 : i ≠ j := by simpa using hj.2
          omega
      · rw [if_neg hr, ih (some i) _ hd.2 hle]
        refine keep_congr _ _ _ 0 fun q _ hq => ?_
        rw [List.mem_cons, List.mem_filter]
        have hne : (q : Int) ≠ i := by
          intro hc
          apply hr
          omega
        constructor
        · rintro ⟨h, _⟩
          exact Or.inr h
        · rintro (h | h)
          · exact absurd h hne
          · exact ⟨h, by simpa using fun hc => hne hc.symm⟩

theorem adjust_designates (len : Nat) (i : Int) (p : Nat) (hp : p < len) :
    adjust len i = (p : Int) ↔ Designates len i p := by
  unfold adjust Designates
  split
  · constructor
    · intro h; exact ⟨hp, Or.inl (by omega)⟩
    · rintro ⟨_, h | h⟩ <;> omega
  · constructor
    · intro h; exact ⟨hp, Or.inr (by omega)⟩
    · rintro ⟨_, h | h⟩ <;> omega

theorem keep_survivors (len : Nat) (is ps : List Int)
    (h : ∀ p : Nat, p < len → ((p : Int) ∈ ps ↔ ∃ i ∈ is, Designates len i p)) :
    ∀ (l : List Word) (p : Nat), p + l.length ≤ len → keep ps p l = survivors len is p l := by
  intro l
  induction l with
  | nil => intro p _; rfl
  | cons v l ih =>
    intro p hp
    simp only [List.length_cons] at hp
    rw [keep, survivors, ih (p + 1) (by omega)]
    have := h p (by omega)
    by_cases hm : (p : Int) ∈ ps
    · rw [if_pos hm, if_pos (this.mp hm)]
    · rw [if_neg hm, if_neg (fun hc => hm (this.mpr hc))]

theorem numbers_mapM (num : Word → Option Int) (ops : List Word) :
    numbers num ops = ops.mapM num := by
  induction ops with
  | nil => rfl
  | cons w ws ih =>
    rw [numbers, List.mapM_cons, ih]
    cases num w with
    | none => rfl
    | some i => cases List.mapM num ws <;> rfl

/-! ### C28 -/

/-- `array -d`: exactly the designated elements are removed, whatever the order of the indices and
however often an element is designated; if an index is not a number, there is an error and nothing
is removed. -/
theorem C28_delete (num : Word → Option Int) (ops vs : List Word) :
    removeElements num ops vs =
      (ops.mapM num).map fun is => survivors vs.length is 0 vs := by
  rw [removeElements, numbers_mapM]
  cases hm : ops.mapM num with
  | none => rfl
  | some is =>
    simp only [Option.map_some, Option.some.injEq]
    have hd : (sortInts (is.map (adjust vs.length))).reverse.Pairwise (· ≥ ·) := by
      rw [List.pairwise_reverse]
      exact sortInts_sorted _
    rw [removeLoop_keep _ none vs hd (fun x hx => by cases hx)]
    refine keep_survivors vs.length is _ ?_ vs 0 (by omega)
    intro p hp
    rw [List.filter_eq_self.mpr (fun _ _ => by simp)]
    simp only [List.mem_reverse, sortInts_mem, List.mem_map]
    constructor
    · rintro ⟨i, hi, ha⟩
      exact ⟨i, hi, (adjust_designates _ _ _ hp).mp ha⟩
    · rintro ⟨i, hi, ha⟩
      exact ⟨i, hi, (adjust_designates _ _ _ hp).mpr ha⟩

/-- The elements that survive, element by element: the survivors are the elements at positions that
no index designates, in their order. -/
theorem C28_survivors (len : Nat) (is : List Int) (vs : List Word) (p : Nat) :
    survivors len is p vs =
      ((vs.zipIdx p).filter fun e => decide (¬ ∃ i ∈ is, Designates len i e.2)).map (·.1) := by
  induction vs generalizing p with
  | nil => rfl
  | cons v vs ih =>
    rw [survivors, List.zipIdx_cons, List.filter_cons, ih]
    by_cases h : ∃ i ∈ is, Designates len i p
    · rw [if_pos h, if_neg (by simpa using h)]
    · rw [if_neg h, if_pos (by simpa using h)]
      rfl

/-- `array -i`: the array is cut into two parts between which the values go.  For a non-negative
index, the first part has that many elements (or all, if there are fewer); for index -1 the last
part is empty, for -2 it has one element, and so on. -/
theorem C28_insert (num : Word → Option Int) (op : Word) (ws vs : List Word) (i : Int)
    (h : num op = some i) :
    ∃ a b, vs = a ++ b ∧ insertElements num op ws vs = some (a ++ ws ++ b) ∧
      (0 ≤ i → (a.length : Int) = min i vs.length) ∧
      (i < 0 → (b.length : Int) = min (-i - 1) vs.length) := by
  refine ⟨vs.take (insertPos vs.length i), vs.drop (insertPos vs.length i),
    (List.take_append_drop _ _).symm, ?_, ?_, ?_⟩
  · simp [insertElements, h]
  · intro hi
    simp only [insertPos, List.length_take]
    rw [if_neg (c := i < 0) (by omega)]
    split <;> omega
  · intro hi
    simp only [insertPos, List.length_drop]
    rw [if_pos (c := i < 0) hi]
    split <;> split <;> omega

/-- An operand of `array -i` or `array -s` that is not a number is an error. -/
theorem C28_not_a_number (num : Word → Option Int) (op w : Word) (ws vs : List Word)
    (h : num op = none) :
    insertElements num op ws vs = none ∧ setElement num op w vs = none := by
  simp [insertElements, setElement, h]

/-- `array -s`: the designated element is replaced. -/
theorem C28_set (num : Word → Option Int) (op w : Word) (vs : List Word) (i : Int) (p : Nat)
    (h : num op = some i) (hd : Designates vs.length i p) :
    setElement num op w vs = some (vs.set p w) := by
  unfold Designates at hd
  simp only [setElement, h]
  obtain ⟨hp, hd | hd⟩ := hd
  · rw [if_neg (by omega), if_pos (by omega), if_pos (by omega),
      show (i - 1).toNat = p from by omega]
  · rw [if_pos (by omega), if_neg (by omega), show (i + vs.length).toNat = p from by omega]

/-- `array -s` with an index that designates no element is an error. -/
theorem C28_set_error (num : Word → Option Int) (op w : Word) (vs : List Word) (i : Int)
    (h : num op = some i) (hd : ∀ p, ¬ Designates vs.length i p) :
    setElement num op w vs = none := by
  unfold Designates at hd
  simp only [setElement, h]
  split
  · split
    · rfl
    · exact absurd ⟨by omega, Or.inr (by omega)⟩ (hd (i + vs.length).toNat)
  · split
    · split
      · exact absurd ⟨by omega, Or.inl (by omega)⟩ (hd (i - 1).toNat)
      · rfl
    · rfl

/-- `shift n` drops the first `n` elements, or for a negative number the last ones. -/
theorem C28_shift (n : Nat) (vs : List Word) (h : n ≤ vs.length) :
    shiftElements n vs = some (vs.drop n) ∧
      shiftElements (-(n : Int)) vs = some (vs.take (vs.length - n)) := by
  constructor
  · simp only [shiftElements]
    rw [if_neg (by omega), if_pos (by omega)]
    simp
  · simp only [shiftElements]
    rw [if_neg (by omega)]
    by_cases hn : n = 0
    · subst hn
      simp
    · rw [if_neg (by omega), show (-(n : Int)).natAbs = n from by omega,
        List.drop_eq_nil_of_le (by omega), List.append_nil]

/-- `shift` by more elements than there are is an error. -/
theorem C28_shift_error (count : Int) (vs : List Word)
    (h : (vs.length : Int) < count ∨ count < -(vs.length : Int)) :
    shiftElements count vs = none := by
  simp only [shiftElements]
  rw [if_pos (by omega)]

/-! ### The hypotheses can be met -/

/-- A conversion for examples: one digit with an optional sign. -/
private def digit (w : Word) : Option Int :=
  match w with
  | [c] => if c.isDigit then some (c.toNat - 48) else none
  | ['-', c] => if c.isDigit then some (-(c.toNat - 48)) else none
  | _ => none

example : removeElements digit ["3".toList, "-1".toList, "3".toList, "0".toList, "9".toList]
    ["a".toList, "b".toList, "c".toList, "d".toList] = some ["a".toList, "b".toList] := by decide
example : Designates 4 (-1) 3 ∧ Designates 4 3 2 ∧ ¬ Designates 4 0 3 := by decide
example : insertElements digit "-2".toList ["x".toList] ["a".toList, "b".toList] =
    some ["a".toList, "x".toList, "b".toList] := by decide
example : setElement digit "-2".toList "x".toList ["a".toList, "b".toList] =
    some ["x".toList, "b".toList] := by decide
example : shiftElements (-1) ["a".toList, "b".toList] = some ["a".toList] := by decide

end Yash.Variable
