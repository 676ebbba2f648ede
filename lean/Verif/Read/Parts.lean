import Verif.Expand.FieldSplitProps
import Verif.Read.Spec
/-! # Lemmas: where the fields that `extract_fields` finds begin -/
set_option autoImplicit false

namespace Yash.Read

open Yash.Expand Yash.Expand.Spec

variable {ws nonIfs : CChar → Bool}

theorem dropWhile_head {α : Type} {p : α → Bool} {l : List α} {c : α}
    (h : c ∈ (l.dropWhile p).head?) : p c = false := by
  induction l with
  | nil => simp at h
  | cons a l ih =>
    rw [List.dropWhile_cons] at h
    split at h
    · exact ih h
    · rename_i hp
      simp at h
      subst h
      simpa using hp

theorem dropWhile_head_self {α : Type} {p : α → Bool} {l : List α}
    (h : ∀ c ∈ l.head?, p c = false) : l.dropWhile p = l := by
  cases l with
  | nil => rfl
  | cons a l => simp [h a (by simp)]

theorem takeWhile_all {α : Type} {p : α → Bool} {l : List α} :
    ∀ c ∈ l.takeWhile p, p c = true := by
  induction l with
  | nil => simp
  | cons a l ih =>
    intro c hc
    rw [List.takeWhile_cons] at hc
    split at hc
    · rcases List.mem_cons.1 hc with rfl | hc
      · assumption
      · exact ih c hc
    · cases hc

theorem dropWhile_append_all {α : Type} {p : α → Bool} {a b : List α} (h : ∀ c ∈ a, p c = true) :
    (a ++ b).dropWhile p = b.dropWhile p := by
  induction a with
  | nil => rfl
  | cons x a ih => simp [h x (by simp), ih (fun c hc => h c (by simp [hc]))]

theorem takeWhile_append_all {α : Type} {p : α → Bool} {a b : List α} (h : ∀ c ∈ a, p c = true)
    (hb : ∀ c ∈ b.head?, p c = false) : (a ++ b).takeWhile p = a := by
  induction a with
  | nil =>
    cases b with
    | nil => rfl
    | cons x b => simp [hb x (by simp)]
  | cons x a ih => simp [h x (by simp), ih (fun c hc => h c (by simp [hc]))]

/-- White space before a field does not matter. -/
theorem loopL_field (white f r : CWord) (after : Bool) (hwhite : ∀ c ∈ white, ws c = true)
    (hf0 : f ≠ []) (hf : ∀ c ∈ f, nonIfs c = true) (hfw : ∀ c ∈ f.head?, ws c = false)
    (hr : ∀ c ∈ r.head?, nonIfs c = false) :
    loopL ws nonIfs (white ++ (f ++ r)) after = f :: loopL ws nonIfs r true := by
  have hd : (white ++ (f ++ r)).dropWhile ws = f ++ r := by
    rw [dropWhile_append_all hwhite]
    apply dropWhile_head_self
    intro c hc
    cases f with
    | nil => exact absurd rfl hf0
    | cons a f => exact hfw c (by simpa using hc)
  have ht : ((white ++ (f ++ r)).dropWhile ws).takeWhile nonIfs = f := by
    rw [hd]; exact takeWhile_append_all hf hr
  have hd2 : ((white ++ (f ++ r)).dropWhile ws).dropWhile nonIfs = r := by
    rw [hd, dropWhile_append_all hf]
    exact dropWhile_head_self hr
  conv => lhs; unfold loopL
  rw [dif_pos (by rw [ht]; exact hf0)]
  rw [ht, hd2]

theorem loopL_white (white : CWord) (after : Bool) (hwhite : ∀ c ∈ white, ws c = true) :
    loopL ws nonIfs white after = if after then [] else [[]] := by
  apply loopL_end
  have := dropWhile_append_all (p := ws) (b := []) hwhite
  simpa using this

theorem loopL_white_sep (white r : CWord) (c : CChar) (after : Bool)
    (hwhite : ∀ c ∈ white, ws c = true) (hw : ws c = false) (hc : nonIfs c = false) :
    loopL ws nonIfs (white ++ c :: r) after =
      (if after then [] else [[]]) ++ loopL ws nonIfs r false := by
  apply loopL_sep _ _ _ _ c _ _ hc
  rw [dropWhile_append_all hwhite]
  exact dropWhile_head_self (by simp [hw])

/-- The fields `X` of the part before a field are the fields `T`, but for an empty one that is due
to the end. -/
def Before (after : Bool) (X T : List CWord) : Prop :=
  X = T ++ [[]] ∨ (X = T ∧ (X = [] → after = true) ∧ X.getLast? ≠ some [])

theorem before_white {white : CWord} (after : Bool) (hwhite : ∀ c ∈ white, ws c = true) :
    Before after (loopL ws nonIfs white after) [] := by
  rw [loopL_white _ _ hwhite]
  cases after
  · exact .inl rfl
  · exact .inr ⟨rfl, fun _ => rfl, by simp⟩

theorem extractLoop_parts (hwn : ∀ c, ws c = true → nonIfs c = false) (w r : CWord) (index : Nat)
    (after : Bool) (dest : List Span) (hr : r = w.drop index) (hi : index ≤ w.length) :
    ∀ sp tail, extractLoop ws nonIfs r index after dest = (dest ++ sp, tail) →
      (∀ k a b, sp[k]? = some (a, b) →
        index ≤ a ∧ a ≤ w.length ∧
        loopL ws nonIfs (w.drop a) false = (loopL ws nonIfs r after).drop k ∧
        Before after (loopL ws nonIfs ((w.drop index).take (a - index)) after)
          ((loopL ws nonIfs r after).take k) ∧
        (∀ c ∈ (w.drop a).head?, ws c = false)) ∧
      ((index = 0 ∨ ∃ c, w[index - 1]? = some c ∧ ws c = false) →
        (tail = 0 ∨ ∃ c, w[tail - 1]? = some c ∧ ws c = false)) := by
  fun_induction extractLoop ws nonIfs r index after dest with
  | case1 r index after dest r1 i1 f hf ih =>
    intro sp tail he
    have hrr : r = r.takeWhile ws ++ (f ++ r1.dropWhile nonIfs) := by
      rw [show f ++ r1.dropWhile nonIfs = r1 from List.takeWhile_append_dropWhile]
      exact List.takeWhile_append_dropWhile.symm
    generalize hwh : r.takeWhile ws = white at hrr
    have hwhite : ∀ c ∈ white, ws c = true := by rw [← hwh]; exact takeWhile_all
    have hi1 : i1 = index + white.length := by simp only [i1, hwh]
    generalize hr2 : r1.dropWhile nonIfs = r2 at hrr ih he
    have hr2h : ∀ c ∈ r2.head?, nonIfs c = false := by
      rw [← hr2]; exact fun c hc => dropWhile_head hc
    have hfall : ∀ c ∈ f, nonIfs c = true := takeWhile_all
    have hfh : ∀ c ∈ f.head?, ws c = false := by
      intro c hc
      have : c ∈ f := List.mem_of_mem_head? hc
      cases h : ws c with
      | false => rfl
      | true => have := hwn c h; rw [hfall c ‹_›] at this; cases this
    have hwd : w.drop index = white ++ (f ++ r2) := by rw [← hr]; exact hrr
    have hlen : w.length = index + (white.length + (f.length + r2.length)) := by
      have := congrArg List.length hwd
      simp at this
      omega
    have hd1 : w.drop i1 = f ++ r2 := by
      rw [hi1, ← List.drop_drop, hwd]; simp
    have hd2 : r2 = w.drop (i1 + f.length) := by
      rw [← List.drop_drop, hd1]; simp
    have hi2 : i1 + f.length ≤ w.length := by omega
    obtain ⟨sp', tail', e1, _⟩ := extractLoop_spec ws nonIfs w r2 (i1 + f.length) true
      (dest ++ [(i1, i1 + f.length)]) hd2 hi2
    rw [e1] at he
    have hsp : sp = (i1, i1 + f.length) :: sp' := by
      have := (Prod.mk.injEq .. ▸ he : _ ∧ _).1
      rw [List.append_assoc] at this
      simpa using (List.append_cancel_left this).symm
    have htail : tail' = tail := (Prod.mk.injEq .. ▸ he : _ ∧ _).2
    obtain ⟨g1, g2⟩ := ih hd2 hi2 sp' tail' e1
    have hloop : loopL ws nonIfs r after = f :: loopL ws nonIfs r2 true := by
      rw [hrr]; exact loopL_field _ _ _ _ hwhite hf hfall hfh hr2h
    refine ⟨?_, ?_⟩
    · intro k a b hk
      rw [hsp] at hk
      cases k with
      | zero =>
        simp at hk
        obtain ⟨rfl, rfl⟩ := hk
        refine ⟨by omega, by omega, ?_, ?_, ?_⟩
        · rw [hd1, hloop]
          exact loopL_field [] f r2 false (by simp) hf hfall hfh hr2h
        · rw [hwd, hi1]
          simp only [Nat.add_sub_cancel_left, List.take_left', List.take_zero]
          exact before_white _ hwhite
        · rw [hd1]
          intro c hc
          apply hfh c
          cases hff : f with
          | nil => exact absurd hff hf
          | cons x y => rw [hff] at hc; simpa using hc
      | succ k =>
        simp only [List.getElem?_cons_succ] at hk
        obtain ⟨a1, a2, a3, a4, a5⟩ := g1 k a b hk
        refine ⟨by omega, a2, ?_, ?_, a5⟩
        · rw [hloop, a3]; rfl
        · have htake : (w.drop index).take (a - index) =
              white ++ (f ++ r2.take (a - (i1 + f.length))) := by
            rw [hwd, List.take_append, List.take_of_length_le (by omega), List.take_append,
              List.take_of_length_le (by omega)]
            congr 3
            omega
          rw [htake, loopL_field _ _ _ _ hwhite hf hfall hfh (by
            intro c hc
            apply hr2h c
            cases r2 with
            | nil => simp at hc
            | cons x y =>
              generalize a - (i1 + f.length) = m at hc
              cases m with
              | zero => simp at hc
              | succ m => simpa using hc), hloop]
          rw [← hd2] at a4
          simp only [List.take_succ_cons]
          rcases a4 with h | ⟨h1, h2, h3⟩
          · left; rw [h]; rfl
          · right
            refine ⟨by rw [h1], by simp, ?_⟩
            generalize loopL ws nonIfs (r2.take (a - (i1 + f.length))) true = X at h3
            cases X with
            | nil => simpa using hf
            | cons x y => simpa [List.getLast?_cons] using h3
    · intro _
      rw [← htail]
      apply g2
      right
      have hf1 : f.length ≠ 0 := fun h => hf (List.eq_nil_of_length_eq_zero h)
      have hlast : (f.getLast hf) ∈ f := List.getLast_mem hf
      refine ⟨f.getLast hf, ?_, ?_⟩
      · have : w[i1 + f.length - 1]? = (w.drop i1)[f.length - 1]? := by
          rw [List.getElem?_drop]; congr 1; omega
        rw [this, hd1, List.getElem?_append_left (by omega), List.getLast_eq_getElem,
          List.getElem?_eq_getElem]
      · cases h : ws (f.getLast hf) with
        | false => rfl
        | true => have := hwn _ h; rw [hfall _ hlast] at this; cases this
  | case2 r index after dest r1 i1 f hf dest' hn =>
    intro sp tail he
    have hrw : r.takeWhile ws = r := by
      have h1 : r.takeWhile ws ++ r.dropWhile ws = r := List.takeWhile_append_dropWhile
      have h2 : r.dropWhile ws = [] := hn
      rw [h2, List.append_nil] at h1
      exact h1
    have hwhite : ∀ c ∈ r, ws c = true := by rw [← hrw]; exact takeWhile_all
    have hrl : r.length = w.length - index := by rw [hr]; simp
    have hi1 : i1 = w.length := by simp only [i1, hrw]; omega
    have h1 := (Prod.mk.injEq .. ▸ he : _ ∧ _).1
    have h2 := (Prod.mk.injEq .. ▸ he : _ ∧ _).2
    have hsp : sp = if after then [] else [(i1, i1)] := by
      simp only [dest'] at h1
      cases after
      · simpa using h1.symm
      · simpa using h1
    refine ⟨?_, fun h => h2 ▸ h⟩
    intro k a b hk
    cases after with
    | true => simp [hsp] at hk
    | false =>
      rw [hsp] at hk
      cases k with
      | succ k => simp at hk
      | zero =>
        simp at hk
        obtain ⟨rfl, rfl⟩ := hk
        refine ⟨by omega, by omega, ?_, ?_, ?_⟩
        · rw [hi1, loopL_white r false hwhite]
          simp [loopL_white]
        · have : (w.drop index).take (i1 - index) = r := by
            rw [← hr]; exact List.take_of_length_le (by omega)
          rw [this]
          exact before_white _ hwhite
        · rw [hi1]; simp
  | case3 r index after dest r1 i1 f hf dest' c r' hn ih =>
    intro sp tail he
    have hrr : r = r.takeWhile ws ++ c :: r' := by
      have h1 : r.takeWhile ws ++ r.dropWhile ws = r := List.takeWhile_append_dropWhile
      have h2 : r.dropWhile ws = c :: r' := hn
      rw [h2] at h1
      exact h1.symm
    have hcw : ws c = false := by
      have h2 : r.dropWhile ws = c :: r' := hn
      exact dropWhile_head (p := ws) (l := r) (by rw [h2]; simp)
    have hcn : nonIfs c = false := by
      have h2 : r.dropWhile ws = c :: r' := hn
      have h3 : ¬ ((r.dropWhile ws).takeWhile nonIfs ≠ []) := hf
      rw [h2] at h3
      cases h : nonIfs c with
      | false => rfl
      | true => simp [h] at h3
    generalize hwh : r.takeWhile ws = white at hrr
    have hwhite : ∀ c ∈ white, ws c = true := by rw [← hwh]; exact takeWhile_all
    have hi1 : i1 = index + white.length := by simp only [i1, hwh]
    have hwd : w.drop index = white ++ c :: r' := by rw [← hr]; exact hrr
    have hlen : w.length = index + (white.length + (r'.length + 1)) := by
      have := congrArg List.length hwd
      simp at this
      omega
    have hd1 : w.drop i1 = c :: r' := by
      rw [hi1, ← List.drop_drop, hwd]; simp
    have hd2 : r' = w.drop (i1 + 1) := by
      rw [← List.drop_drop, hd1]; simp
    have hi2 : i1 + 1 ≤ w.length := by omega
    obtain ⟨sp', tail', e1, _⟩ := extractLoop_spec ws nonIfs w r' (i1 + 1) false dest' hd2 hi2
    rw [e1] at he
    have hsp : sp = (if after then [] else [(i1, i1)]) ++ sp' := by
      have := (Prod.mk.injEq .. ▸ he : _ ∧ _).1
      simp only [dest'] at this
      cases after
      · have this : dest ++ [(i1, i1)] ++ sp' = dest ++ sp := this
        rw [List.append_assoc] at this
        exact (List.append_cancel_left this).symm
      · simp only [if_true, List.nil_append] at this ⊢
        exact (List.append_cancel_left this).symm
    have htail : tail' = tail := (Prod.mk.injEq .. ▸ he : _ ∧ _).2
    obtain ⟨g1, g2⟩ := ih hd2 hi2 sp' tail' e1
    have hloop : loopL ws nonIfs r after =
        (if after then [] else [[]]) ++ loopL ws nonIfs r' false := by
      rw [hrr]; exact loopL_white_sep _ _ _ _ hwhite hcw hcn
    have hpart : ∀ k a b, sp'[k]? = some (a, b) →
        index ≤ a ∧ a ≤ w.length ∧
        loopL ws nonIfs (w.drop a) false = (loopL ws nonIfs r' false).drop k ∧
        (∃ X, loopL ws nonIfs ((w.drop index).take (a - index)) after =
          (if after then [] else [[]]) ++ X ∧
          Before false X ((loopL ws nonIfs r' false).take k)) ∧
        (∀ c ∈ (w.drop a).head?, ws c = false) := by
      intro k a b hk
      obtain ⟨a1, a2, a3, a4, a5⟩ := g1 k a b hk
      refine ⟨by omega, a2, a3, ⟨_, ?_, a4⟩, a5⟩
      have htake : (w.drop index).take (a - index) = white ++ c :: (r'.take (a - (i1 + 1))) := by
        rw [hwd, List.take_append, List.take_of_length_le (by omega)]
        have : a - index - white.length = (a - (i1 + 1)) + 1 := by omega
        rw [this, List.take_succ_cons]
      rw [htake, loopL_white_sep _ _ _ _ hwhite hcw hcn, hd2]
    refine ⟨?_, ?_⟩
    · intro k a b hk
      rw [hsp] at hk
      cases after with
      | true =>
        obtain ⟨a1, a2, a3, ⟨X, a4, a6⟩, a5⟩ := hpart k a b (by simpa using hk)
        refine ⟨a1, a2, ?_, ?_, a5⟩
        · rw [a3, hloop]; rfl
        · rw [a4, hloop]
          simp only [if_true, List.nil_append]
          exact a6.imp id fun ⟨x, y, z⟩ => ⟨x, fun _ => rfl, z⟩
      | false =>
        simp only [Bool.false_eq_true, if_false] at hk hloop
        cases k with
        | zero =>
          simp at hk
          obtain ⟨rfl, rfl⟩ := hk
          refine ⟨by omega, by omega, ?_, ?_, ?_⟩
          · rw [hd1, hloop]
            exact loopL_white_sep [] r' c false (by simp) hcw hcn
          · rw [hwd, hi1]
            simp only [Nat.add_sub_cancel_left, List.take_left', List.take_zero]
            exact before_white _ hwhite
          · rw [hd1]; simp [hcw]
        | succ k =>
          obtain ⟨a1, a2, a3, ⟨X, a4, a6⟩, a5⟩ := hpart k a b (by simpa using hk)
          refine ⟨a1, a2, ?_, ?_, a5⟩
          · rw [a3, hloop]; rfl
          · rw [a4, hloop]
            simp only [Bool.false_eq_true, if_false, List.cons_append, List.nil_append,
              List.take_succ_cons]
            rcases a6 with h | ⟨h1, h2, h3⟩
            · left; rw [h]; rfl
            · right
              refine ⟨by rw [h1], by simp, ?_⟩
              cases X with
              | nil => exact absurd (h2 rfl) (by simp)
              | cons x y => simpa [List.getLast?_cons] using h3
    · intro _
      rw [← htail]
      apply g2
      right
      refine ⟨c, ?_, hcw⟩
      have : w[i1 + 1 - 1]? = (w.drop i1)[0]? := by
        rw [List.getElem?_drop]; congr 1
      rw [this, hd1]; rfl

end Yash.Read
