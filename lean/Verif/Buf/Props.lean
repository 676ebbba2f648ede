import Verif.Buf.Spec
/-! # Property C03: pointer lists and string buffers behave as lists -/
set_option autoImplicit false

namespace Yash.Buf

open Spec

variable {α : Type}

/-- The block represents the sequence `l`: it starts with the elements of `l` followed by the
terminator, and has room for exactly `maxlength` elements and a terminator. -/
structure Holds (k : Kind α) (b : Buffer α) (l : List α) : Prop where
  len : b.length = l.length
  room : b.length ≤ b.maxlength
  size : b.cells.length = b.maxlength + 1
  elems : ∃ junk, b.cells = l.map some ++ some k.nul :: junk

theorem take_append' {l r : List α} {n : Nat} (h : n = l.length) : (l ++ r).take n = l := by
  subst h; simp
theorem drop_append' {l r : List α} {n : Nat} (h : n = l.length) : (l ++ r).drop n = r := by
  subst h; simp

theorem setMax_holds {k : Kind α} {b : Buffer α} {l : List α} (h : Holds k b l) (n : Nat) :
    ∃ b', setMax k b n = some b' ∧ Holds k b' (l.take n) ∧ b'.maxlength = n := by
  obtain ⟨h1, h2, h3, junk, h4⟩ := h
  have hlen : (resize b.cells (n + 1)).length = n + 1 := by
    simp only [resize, List.length_append, List.length_take, List.length_replicate]; omega
  refine ⟨_, by simp only [setMax, poke, hlen, Nat.lt_succ_self, if_true]; rfl, ?_, rfl⟩
  constructor
  · simp only [List.length_take]; split <;> omega
  · simp only; split <;> omega
  · simp [hlen]
  · simp only
    by_cases hn : n ≤ l.length
    · -- truncated at n
      refine ⟨[], ?_⟩
      have : resize b.cells (n + 1) = (l.take n).map some ++
          (resize b.cells (n + 1)).drop n := by
        conv => lhs; rw [← List.take_append_drop n (resize b.cells (n + 1))]
        congr 1
        have hle : n + 1 ≤ b.cells.length := by rw [h4]; simp; omega
        simp only [resize]
        rw [List.take_append_of_le_length (by simp; omega), List.take_take,
          Nat.min_eq_left (by omega), h4, List.take_append_of_le_length (by simp; omega),
          List.map_take]
      have hd : ((resize b.cells (n + 1)).drop n).length = 1 := by simp [hlen]
      obtain ⟨x, hx⟩ := List.length_eq_one_iff.1 hd
      rw [this, hx, List.set_append_right _ _ (by simp; omega)]
      have : n - (List.map some (List.take n l)).length = 0 := by simp; omega
      rw [this]; rfl
    · have hr : resize b.cells (n + 1) = l.map some ++ some k.nul ::
          (junk.take (n - l.length) ++ List.replicate (n + 1 - b.cells.length) none) := by
        simp only [resize]
        have : n + 1 = (l.map (some (α := α))).length + ((n - l.length) + 1) := by simp; omega
        have hc : b.cells.take (n + 1) = l.map some ++ some k.nul :: junk.take (n - l.length) := by
          rw [h4, this, List.take_length_add_append]; rfl
        rw [hc]; simp
      rw [List.take_of_length_le (by omega), hr, List.set_append_right _ _ (by simp; omega)]
      obtain ⟨j, hj⟩ : ∃ j, n - (l.map (some (α := α))).length = j + 1 :=
        ⟨n - l.length - 1, by simp; omega⟩
      rw [hj]
      exact ⟨_, rfl⟩

theorem ensureMax_holds {k : Kind α} {b : Buffer α} {l : List α} (h : Holds k b l) (n : Nat) :
    ∃ b', ensureMax k b n = some b' ∧ Holds k b' l ∧ n ≤ b'.maxlength := by
  unfold ensureMax
  by_cases hn : n ≤ b.maxlength
  · exact ⟨b, by simp [hn], h, hn⟩
  · simp only [hn, if_false]
    generalize hm1 : (if n < b.maxlength + b.maxlength / 2 then b.maxlength + b.maxlength / 2
      else n) = m1
    generalize hm2 : (if m1 < b.maxlength + k.growth then b.maxlength + k.growth else m1) = m2
    have hm1' : n ≤ m1 := by split at hm1 <;> omega
    have hm2' : n ≤ m2 := by split at hm2 <;> omega
    obtain ⟨b', h1, h2, h3⟩ := setMax_holds h m2
    have := h.len; have := h.room
    rw [List.take_of_length_le (by omega)] at h2
    exact ⟨b', h1, h2, by omega⟩

theorem replace_holds {k : Kind α} {b : Buffer α} {l : List α} (h : Holds k b l) (i ln : Nat)
    (a : List α) :
    ∃ b', replace k b i ln a = some b' ∧ Holds k b' (l.take i ++ a ++ l.drop (i + ln)) := by
  unfold replace
  dsimp only
  generalize hi' : (if i > b.length then b.length else i) = i'
  generalize hl' : (if ln > b.length - i' then b.length - i' else ln) = ln'
  have hb := h.len
  have hi1 : i' ≤ l.length := by split at hi' <;> omega
  have hl1 : i' + ln' ≤ l.length := by split at hl' <;> omega
  have ht : l.take i = l.take i' := by
    split at hi'
    · rw [List.take_of_length_le (by omega), List.take_of_length_le (by omega)]
    · rw [hi']
  have hd : l.drop (i + ln) = l.drop (i' + ln') := by
    split at hi' <;> split at hl' <;>
      first
      | (rw [List.drop_of_length_le (by omega), List.drop_of_length_le (by omega)])
      | (subst hi' hl'; rfl)
  rw [ht, hd]
  obtain ⟨b1, e1, e2, e3⟩ := ensureMax_holds h (b.length - ln' + a.length)
  obtain ⟨h1, h2, h3, junk, h4⟩ := e2
  have c1 : ¬ b.length < ln' := by omega
  have c2 : ¬ b1.length < i' + ln' := by omega
  have c3 : i' + ln' + (b1.length - (i' + ln') + 1) ≤ b1.cells.length := by omega
  -- the moved part
  have hsrc : (b1.cells.drop (i' + ln')).take (b1.length - (i' + ln') + 1) =
      (l.drop (i' + ln')).map some ++ [some k.nul] := by
    rw [h4, List.drop_append_of_le_length (by simp; omega), ← List.map_drop]
    have : b1.length - (i' + ln') + 1 = ((l.drop (i' + ln')).map (some (α := α))).length + 1 := by
      simp; omega
    rw [this, List.take_length_add_append]; rfl
  have hpre : b1.cells.take i' = (l.take i').map some := by
    rw [h4, List.take_append_of_le_length (by simp; omega), List.map_take]
  have hfit : i' + a.length + ((l.drop (i' + ln')).map some ++ [some k.nul]).length ≤
      b1.cells.length := by simp; omega
  have hfit2 : i' + (a.map some).length ≤ (b1.cells.take (i' + a.length) ++
      ((l.drop (i' + ln')).map some ++ [some k.nul]) ++ b1.cells.drop (i' + a.length +
        ((l.drop (i' + ln')).map some ++ [some k.nul]).length)).length := by simp; omega
  refine ⟨_, by
    simp only [replaceForce, e1, c1, if_false, Option.bind_eq_bind, Option.bind_some, c2, memmove,
      c3, if_true, hsrc, blit, hfit]
    rw [if_pos hfit2]
    rfl, ?_⟩
  constructor
  · simp; omega
  · exact e3
  · simp; omega
  · refine ⟨(b1.cells.drop (i' + a.length +
        ((l.drop (i' + ln')).map some ++ [some k.nul]).length)), ?_⟩
    have hx : (b1.cells.take (i' + a.length)).length = i' + a.length := by simp; omega
    simp only [List.append_assoc]
    rw [List.take_append_of_le_length (by omega), List.take_take, Nat.min_eq_left (by omega), hpre]
    rw [List.drop_append_of_le_length (by simp; omega)]
    have : List.drop (i' + (a.map some).length) (b1.cells.take (i' + a.length)) = [] := by
      apply List.drop_of_length_le; simp; omega
    rw [this]
    simp [List.map_append]

theorem replace_is {k : Kind α} {b b' : Buffer α} {l l' : List α}
    (h : Holds k b l) {i ln : Nat} {a : List α} (hl : l' = l.take i ++ a ++ l.drop (i + ln)) :
    ∃ b', replace k b i ln a = some b' ∧ Holds k b' l' := hl ▸ replace_holds h i ln a

theorem add_holds {k : Kind α} {b : Buffer α} {l : List α} (h : Holds k b l) (p : α) :
    ∃ b', add k b p = some b' ∧ Holds k b' (l ++ [p]) := by
  obtain ⟨b1, e1, ⟨h1, h2, h3, junk, h4⟩, e3⟩ := ensureMax_holds h (b.length + 1)
  have hb := h.len
  have c1 : b1.length < b1.cells.length := by omega
  have c2 : b1.length + 1 < b1.cells.length := by omega
  refine ⟨_, by
    simp only [add, e1, Option.bind_eq_bind, Option.bind_some, poke, c1, c2, if_true,
      List.length_set]; rfl, ?_⟩
  constructor
  · simp; omega
  · simp only; omega
  · simp; omega
  · have hj : junk ≠ [] := by
      rintro rfl
      rw [h4] at c2; simp at c2; omega
    obtain ⟨x, j, rfl⟩ := List.exists_cons_of_ne_nil hj
    refine ⟨j, ?_⟩
    simp only [h4, h1]
    rw [List.set_append_right _ _ (by simp), List.set_append_right _ _ (by simp)]
    simp

theorem addRepeat_holds {k : Kind α} {b : Buffer α} {l : List α} (h : Holds k b l) (p : α)
    (n : Nat) :
    ∃ b', addRepeat k b p n = some b' ∧ Holds k b' (l ++ List.replicate n p) := by
  obtain ⟨b1, e1, ⟨h1, h2, h3, junk, h4⟩, e3⟩ := ensureMax_holds h (b.length + n)
  have hb := h.len
  have c1 : b1.length + (List.replicate n (some p)).length ≤ b1.cells.length := by simp; omega
  have hl : (b1.cells.take b1.length ++ List.replicate n (some p) ++
      b1.cells.drop (b1.length + (List.replicate n (some p)).length)).length = b1.cells.length := by
    simp; omega
  refine ⟨_, by
    simp only [addRepeat, e1, Option.bind_eq_bind, Option.bind_some, blit, c1, if_true, poke, hl]
    rw [if_pos (by omega)]; rfl, ?_⟩
  constructor
  · simp; omega
  · simp only; omega
  · rw [List.length_set, hl]; exact h3
  · have ht : b1.cells.take b1.length = l.map some := by
      rw [h4, take_append' (by simp; omega)]
    have hd : ∃ x j, b1.cells.drop (b1.length + (List.replicate n (some p)).length) = x :: j := by
      apply List.exists_cons_of_ne_nil
      simp; omega
    obtain ⟨x, j, hd⟩ := hd
    refine ⟨j, ?_⟩
    simp only [ht, hd]
    rw [List.set_append_right _ _ (by simp; omega)]
    have : b1.length + n - (List.map some l ++ List.replicate n (some p)).length = 0 := by
      simp; omega
    rw [this]; simp

theorem shrink_holds {k : Kind α} {b : Buffer α} {l : List α} (h : Holds k b l) {n : Nat}
    (hn : n ≤ b.length) : ∃ c, poke b.cells n k.nul = some c ∧
      Holds k { b with cells := c, length := n } (l.take n) := by
  obtain ⟨h1, h2, h3, junk, h4⟩ := h
  refine ⟨b.cells.set n (some k.nul), by rw [poke, if_pos (by omega)], ?_⟩
  constructor
  · simp; omega
  · simp only; omega
  · simp [h3]
  · refine ⟨b.cells.drop (n + 1), ?_⟩
    simp only
    rw [List.set_eq_take_append_cons_drop, if_pos (by omega), h4,
      List.take_append_of_le_length (by simp; omega), List.map_take]

/-- Sends a request to the modelled C function. -/
def perform (k : Kind α) (sizeMax : Nat) (b : Buffer α) : Op α → Option (Buffer α)
  | .replace i ln a => replace k b i ln a
  | .add p => add k b p
  | .addRepeat p n => addRepeat k b p n
  | .insert i a => ninsert k b i a
  | .cat a => ncat k sizeMax b a
  | .remove i n => remove k b i n
  | .truncate n => truncate k b n
  | .clear => (clear k b).map (·.1)
  | .setMax n => setMax k b n
  | .ensureMax n => ensureMax k b n

def runAll (k : Kind α) (sizeMax : Nat) (b : Buffer α) : List (Op α) → Option (Buffer α)
  | [] => some b
  | op :: ops => (perform k sizeMax b op).bind (fun b' => runAll k sizeMax b' ops)

theorem perform_holds {k : Kind α} {sizeMax : Nat} {b : Buffer α} {l l' : List α}
    (h : Holds k b l) (hs : b.length ≤ sizeMax) (op : Op α) (hop : step l op = some l') :
    ∃ b', perform k sizeMax b op = some b' ∧ Holds k b' l' := by
  have hb := h.len
  cases op with
  | replace i ln a => cases hop; exact replace_holds h i ln a
  | add p => cases hop; exact add_holds h p
  | addRepeat p n => cases hop; exact addRepeat_holds h p n
  | insert i a => cases hop; exact replace_holds h i 0 a
  | cat a =>
    cases hop
    obtain ⟨b', h1, h2⟩ := replace_holds h sizeMax 0 a
    rw [List.take_of_length_le (by omega), List.drop_of_length_le (by omega)] at h2
    exact ⟨b', h1, by simpa using h2⟩
  | remove i n =>
    cases hop
    obtain ⟨b', h1, h2⟩ := replace_holds h i n []
    exact ⟨b', h1, by simpa using h2⟩
  | truncate n =>
    simp only [step] at hop
    split at hop
    · rename_i hn
      cases hop
      have hn' : n ≤ b.length := by omega
      obtain ⟨c, h1, h2⟩ := shrink_holds h hn'
      exact ⟨_, by simp [perform, truncate, hn', h1], h2⟩
    · cases hop
  | clear =>
    cases hop
    obtain ⟨c, h1, h2⟩ := shrink_holds h (Nat.zero_le _)
    exact ⟨_, by simp [perform, clear, h1], h2⟩
  | setMax n =>
    cases hop
    obtain ⟨b', h1, h2, _⟩ := setMax_holds h n
    exact ⟨b', h1, h2⟩
  | ensureMax n =>
    cases hop
    obtain ⟨b', h1, h2, _⟩ := ensureMax_holds h n
    exact ⟨b', h1, h2⟩

/-- A fresh buffer is empty and well formed. -/
theorem init_holds (k : Kind α) (max : Nat) :
    ∃ b, initWithMax k max = some b ∧ Holds k b [] :=
  ⟨⟨some k.nul :: List.replicate max none, 0, max⟩,
    by simp [initWithMax, poke, List.replicate_succ],
    ⟨rfl, Nat.zero_le _, by simp, ⟨List.replicate max none, rfl⟩⟩⟩

/-- Every intermediate sequence of a history is shorter than `n`. -/
def Small (n : Nat) (l : List α) : List (Op α) → Prop
  | [] => l.length ≤ n
  | op :: ops => l.length ≤ n ∧ ∀ l', step l op = some l' → Small n l' ops

theorem runAll_holds {k : Kind α} {sizeMax : Nat} :
    ∀ (ops : List (Op α)) {b : Buffer α} {l l' : List α}, Holds k b l → Small sizeMax l ops →
      run l ops = some l' → ∃ b', runAll k sizeMax b ops = some b' ∧ Holds k b' l'
  | [], b, l, l', h, _, hr => by cases hr; exact ⟨b, rfl, h⟩
  | op :: ops, b, l, l', h, hs, hr => by
    cases ho : step l op with
    | none => simp [run, ho] at hr
    | some l1 =>
      simp only [run, ho, Option.bind_some] at hr
      have := h.len
      obtain ⟨b1, h1, h2⟩ := perform_holds h (sizeMax := sizeMax) (by have := hs.1; omega) op ho
      obtain ⟨b2, h3, h4⟩ := runAll_holds ops h2 (hs.2 l1 ho) hr
      exact ⟨b2, by simp [runAll, h1, h3], h4⟩

/-- **C03.** For every history of edits that respects the one documented precondition (truncate
only shrinks) and any initial capacity, the C code stays within its memory block, and ends with a
terminated block holding exactly the sequence that editing immutable lists gives.
`sizeMax` is `SIZE_MAX`, which no list length exceeds. -/
theorem C03_buffer_is_list (k : Kind α) (sizeMax max : Nat) (ops : List (Op α)) (l : List α)
    (hsmall : Small sizeMax [] ops) (hspec : run [] ops = some l) :
    ∃ b, (initWithMax k max).bind (fun b => runAll k sizeMax b ops) = some b ∧ Holds k b l := by
  obtain ⟨b, h1, h2⟩ := init_holds k max
  obtain ⟨b', h3, h4⟩ := runAll_holds ops h2 hsmall hspec
  exact ⟨b', by simp [h1, h3], h4⟩

/-- **C03**, clearing: exactly the elements of the list are handed to the freer, in order. -/
theorem C03_clear_frees_elements {k : Kind α} {b : Buffer α} {l : List α} (h : Holds k b l) :
    ∃ b', clear k b = some (b', l.map some) ∧ Holds k b' [] := by
  obtain ⟨c, h1, h2⟩ := shrink_holds h (Nat.zero_le _)
  refine ⟨_, ?_, h2⟩
  obtain ⟨h3, _, _, junk, h4⟩ := h
  have : b.cells.take b.length = l.map some := by rw [h4]; exact take_append' (by simp [h3])
  simp [clear, h1, this]

/-- **C03**, counting: if no element is the terminator, counting up to the terminator (`plcount`,
`wcslen`) finds the length. -/
theorem C03_count [DecidableEq α] {k : Kind α} {b : Buffer α} {l : List α} (h : Holds k b l)
    (hn : k.nul ∉ l) : count k b.cells = some b.length := by
  obtain ⟨h3, _, _, junk, h4⟩ := h
  rw [h4, h3]; clear h3 h4
  induction l with
  | nil => simp [count]
  | cons a l ih =>
    have h1 : a ≠ k.nul := by rintro rfl; simp at hn
    have h2 : k.nul ∉ l := fun h => hn (by simp [h])
    simp [count, h1, ih h2]

/-! ## Non-vacuity -/

def demoKind : Kind Nat := { nul := 0, growth := 2 }
def demoOps : List (Op Nat) :=
  [.add 5, .cat [6, 7, 8], .replace 1 2 [1, 2, 3, 4], .remove 10 3, .insert 99 [9], .setMax 5,
   .truncate 4, .addRepeat 3 2]

example : run [] demoOps = some [5, 1, 2, 3, 3, 3] := by decide
example : Small 1000 [] demoOps := by simp [demoOps, Small, step]
example : ((initWithMax demoKind 0).bind fun b => runAll demoKind 1000 b demoOps).map
    (fun b => (b.cells.take 7, b.length)) =
    some ([some 5, some 1, some 2, some 3, some 3, some 3, some 0], 6) := by decide
example : run [] [Op.add 1, .truncate 2] = none := by decide

end Yash.Buf
