import Verif.History.Fc
/-!
# What `fc` and `history` list (C64)
-/
set_option autoImplicit false

namespace Yash.History

open Yash.Spec.History

/-- **C64.** `fc first last` is about the entries from one place to the other, in the order of the operands, or the opposite with `-r`; except for places that touch,
which see below. -/
theorem fc_range_partial {P : Params} {intMax : Nat} {l : List Entry} (h : Good P l) (hne : l ≠ []) {o1 o2 : Operand} {p q : Place} (h1 : Denotes l o1 p)
    (h2 : Denotes l o2 q) (f1 : Fits intMax o1) (f2 : Fits intMax o2) (ht : ¬ Touching p q) (list rev : Bool) :
    (p.le q → fcEntries P intMax list rev (some o1) (some o2) l =
      some (.success, if rev then (slice l (start l p) (stop l q)).reverse else slice l (start l p) (stop l q))) ∧
    (q.le p → ¬ p.le q → fcEntries P intMax list rev (some o1) (some o2) l =
      some (.success, if rev then slice l (start l q) (stop l p) else (slice l (start l q) (stop l p)).reverse)) := by
  have hp := denotes_valid hne h1
  have hq := denotes_valid hne h2
  have he := fcEntries_places (intMax := intMax) h hne (list := list) (rev := rev) (first := some o1) (last := some o2) hp hq (fcSearch_denotes h hne h1 f1)
    (fcSearch_denotes h hne h2 f2)
  rw [he]
  constructor
  · intro hle
    obtain ⟨s1, s2, s3⟩ := swaps_of_le hp hq hle ht
    cases hs : swaps p q with
    | false =>
      simp only [Bool.false_eq_true, if_false]
      rw [printEntries_slice s1 s2]
      cases rev <;> rfl
    | true =>
      obtain ⟨e1, e2, e3⟩ := s3 hs
      simp only [if_true]
      rw [← e2, ← e3, e1, printEntries_slice (Nat.le_refl _) (by omega), slice_self (by omega)]
      cases rev <;> rfl
  · intro hle hn
    obtain ⟨s1, s2, s3⟩ := swaps_of_gt hp hq hle hn
    rw [s1]
    simp only [if_true]
    rw [printEntries_slice s2 s3]
    cases rev <;> rfl

/-- Every pair of places is ordered one way or the other, so that the theorem says what is listed for every pair. -/
theorem le_total (p q : Place) : p.le q ∨ q.le p := by
  cases p <;> cases q <;> simp only [Place.le, true_or, or_true] <;> omega

/-- **C64.** If the places touch, the program follows the links out of the list. -/
theorem fc_touching_undefined {P : Params} {intMax : Nat} {l : List Entry} (h : Good P l) (hne : l ≠ []) {o1 o2 : Operand} {p q : Place} (h1 : Denotes l o1 p)
    (h2 : Denotes l o2 q) (f1 : Fits intMax o1) (f2 : Fits intMax o2) (ht : Touching p q) (list rev : Bool) :
    fcEntries P intMax list rev (some o1) (some o2) l = none := by
  have hp := denotes_valid hne h1
  have hq := denotes_valid hne h2
  rw [fcEntries_places (intMax := intMax) h hne (list := list) (rev := rev) (first := some o1) (last := some o2) hp hq (fcSearch_denotes h hne h1 f1)
    (fcSearch_denotes h hne h2 f2)]
  have : swaps p q = true ∧ stop l p < start l q := by
    cases p <;> cases q <;> simp only [Touching, swaps, start, stop, decide_eq_true_eq] at * <;> omega
  rw [this.1, if_pos rfl, printEntries_away this.2]
  rfl

/-- **C64.** `fc -l` lists the sixteen newest entries. -/
theorem fc_list_default {P : Params} {intMax : Nat} {l : List Entry} (h : Good P l) (hi : 16 ≤ intMax) (rev : Bool) :
    fcEntries P intMax true rev none none l = some (.success, if rev then (l.drop (l.length - 16)).reverse else l.drop (l.length - 16)) := by
  by_cases hne : l = []
  · subst hne
    cases rev <;> rfl
  · have hlen : 0 < l.length := by cases l with | nil => exact absurd rfl hne | cons => simp
    obtain ⟨p, hp, hpp⟩ : ∃ p, Denotes l (.number (-16)) p ∧ (p = .entry (l.length - 16) ∨ (p = .before ∧ l.length < 16)) := by
      by_cases h16 : 16 ≤ l.length
      · exact ⟨_, Denotes.back (k := 16) (by omega) h16, Or.inl rfl⟩
      · exact ⟨_, Denotes.tooFar (k := 16) (by omega), Or.inr ⟨rfl, by omega⟩⟩
    have hq : Denotes l (.number (-1)) (.entry (l.length - 1)) := Denotes.back (k := 1) (by omega) (by omega)
    have hc : fcEntries P intMax true rev none none l = fcEntries P intMax true rev (some (.number (-16))) (some (.number (-1))) l := rfl
    rw [hc, (fc_range_partial h hne hp hq (by simp only [Fits]; omega) (by simp only [Fits]; omega) (by rcases hpp with rfl | ⟨rfl, _⟩ <;> exact id) true rev).1
      (by rcases hpp with rfl | ⟨rfl, _⟩ <;> simp only [Place.le]; omega)]
    have : start l p = l.length - 16 := by rcases hpp with rfl | ⟨rfl, hlt⟩ <;> simp only [start]; omega
    have hs : slice l (start l p) (stop l (.entry (l.length - 1))) = l.drop (l.length - 16) := by
      rw [this, slice]
      simp only [stop]
      rw [List.take_of_length_le (by omega)]
    rw [hs]

/-- **C64.** An operand that no entry begins with is an error. -/
theorem fc_unknown {P : Params} {intMax : Nat} {l : List Entry} (hne : l ≠ []) {s : Str} (hs : ∀ i, ¬ NewestWith l s i) (list rev : Bool) (last : Option Operand) :
    fcEntries P intMax list rev (some (.str s)) last l = some (.failure, []) ∧ fcSilent P intMax (some (.str s)) l = some (.failure, none) := by
  have : searchPrefix s l = none := by
    cases hsp : searchPrefix s l with
    | none => rfl
    | some i => exact absurd (searchPrefix_some.mp hsp) (hs i)
  have hemp : ¬ l.isEmpty = true := by simpa using hne
  constructor
  · rw [fcEntries, if_neg hemp]
    simp [fcSearch, this]
  · rw [fcSilent, if_neg hemp]
    simp [fcSearch, this]

/-- If there is an entry that begins with a string, there is a newest one. -/
theorem exists_newestWith {l : List Entry} {s : Str} (h : ∃ e ∈ l, ∃ rest, e.value = s ++ rest) : ∃ i, NewestWith l s i := by
  cases hsp : searchPrefix s l with
  | some i => exact ⟨i, searchPrefix_some.mp hsp⟩
  | none =>
    obtain ⟨e, he, rest, hv⟩ := h
    rw [searchPrefix, Option.map_eq_none_iff, List.findIdx?_eq_none_iff] at hsp
    have := hsp e (by simpa using he)
    have hp : s.isPrefixOf (s ++ rest) = true := by simp
    rw [← hv] at hp
    rw [hp] at this
    cases this

/-- **C64.** `fc -s` executes the entry the operand denotes, and nothing if it does not denote an entry. -/
theorem fc_silent {P : Params} {intMax : Nat} {l : List Entry} (h : Good P l) (hne : l ≠ []) {o : Operand} {p : Place} (hd : Denotes l o p) (hf : Fits intMax o) :
    fcSilent P intMax (some o) l =
      match p with
      | .entry i => some (.success, l[i]?)
      | _ => some (.failure, none) := by
  have hemp : ¬ l.isEmpty = true := by simpa using hne
  have hv := denotes_valid hne hd
  rw [fcSilent, if_neg hemp]
  simp only [Option.getD_some, fcSearch_denotes h hne hd hf, Option.bind_eq_bind, Option.bind_some]
  cases p with
  | entry i =>
    simp only [Valid] at hv
    simp [ofPlace, List.getElem?_eq_getElem hv]
  | between i => simp [ofPlace]
  | before => simp [ofPlace]
  | after => simp [ofPlace]

/-- **C64.** `history count` lists the newest entries, as many as there are. -/
theorem history_count (count : Nat) (l : List Entry) : historyList count l = some (l.drop (l.length - count)) := by
  rw [historyList]
  by_cases hne : l = []
  · subst hne
    simp [nthNewest]
  · have hlen : 0 < l.length := by cases l with | nil => exact absurd rfl hne | cons => simp
    by_cases hc : l.length ≤ count
    · rw [nthNewest_tooFar hne hc]
      simp only
      rw [printEntries_slice (by omega) (by omega), slice, List.take_of_length_le (by omega)]
      have : l.length - count = 0 := by omega
      simp [this]
    · by_cases h0 : count = 0
      · subst h0
        simp [nthNewest, hc]
      · rw [nthNewest_back (by omega) (by omega)]
        simp only
        rw [printEntries_slice (by omega) (by omega), slice, List.take_of_length_le (by omega)]
        rfl

/-- `number` and `value`, for examples. -/
def sample : List Entry := [⟨1, none, "ls".toList⟩, ⟨5, none, "cd /".toList⟩, ⟨9, none, "make".toList⟩, ⟨10, none, "make test".toList⟩]

theorem sample_good : Good (.default false) sample :=
  ⟨by decide, by decide, [1, 5, 9, 10], [], rfl, by decide, by decide, by decide⟩

/-- Entries 5 to 9. -/
example : fcEntries (.default false) 2147483647 true false (some (.number 5)) (some (.str "make".toList)) sample =
    some (.success, [⟨5, none, "cd /".toList⟩, ⟨9, none, "make".toList⟩, ⟨10, none, "make test".toList⟩]) := by decide +kernel

example : Denotes sample (.number 5) (.entry 1) ∧ Denotes sample (.str "make".toList) (.entry 3) ∧ ¬ Touching (.entry 1) (.entry 3) := by
  refine ⟨Denotes.number (n := 5) (by decide) ⟨_, rfl, rfl⟩, Denotes.str ?_, id⟩
  exact searchPrefix_some.mp (by decide +kernel)

/-- `fc -l 3 5`: there is no entry 3, the entry 5 should be listed. -/
example : Denotes sample (.number 3) (.between 0) ∧ Denotes sample (.number 5) (.entry 1) ∧ Touching (.between 0) (.entry 1) ∧
    fcEntries (.default false) 2147483647 true false (some (.number 3)) (some (.number 5)) sample = none :=
  ⟨Denotes.number (n := 3) (by decide) ⟨_, _, rfl, rfl, by decide, by decide⟩, Denotes.number (n := 5) (by decide) ⟨_, rfl, rfl⟩, rfl, by decide +kernel⟩

/-- `fc -l 2 7`, where neither exists. -/
example : fcEntries (.default false) 2147483647 true false (some (.number 2)) (some (.number 7)) sample = some (.success, [⟨5, none, "cd /".toList⟩]) := by decide +kernel

/-- `fc -l -1 -2` lists the newest entry first. -/
example : fcEntries (.default false) 2147483647 true false (some (.number (-1))) (some (.number (-2))) sample =
    some (.success, [⟨10, none, "make test".toList⟩, ⟨9, none, "make".toList⟩]) := by decide +kernel

/-- **C64.** The least number there is cannot be negated. -/
theorem fc_int_min (P : Params) (intMax : Nat) (l : List Entry) : fcSearch P intMax (.number (-(intMax : Int) - 1)) l = none := by
  rw [fcSearch, if_neg (by omega), if_neg (by omega), if_pos (by omega)]

end Yash.History
