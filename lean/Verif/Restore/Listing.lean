import Verif.Restore.Effect
import Verif.Restore.Lines
import Verif.Variable.Effect
/-! # Which variables are printed -/
set_option autoImplicit false

namespace Yash.Restore

open Yash.Variable
open Yash.Variable.Spec
open Yash.Restore.Spec
open Yash.Syntax Yash.Parser
open Yash.Parser.Spec
open Yash.Expand (Locale quoteAsWord lineOf)

/-! ## The variables -/

def keys (m : Map Var) : List Name := m.map (·.1)

theorem keys_put (m : Map Var) (n : Name) (v : Var) (h : (keys m).Nodup) : (keys (put m n v)).Nodup := by
  unfold keys put Yash.Variable.remove at *
  rw [List.map_cons, List.nodup_cons]
  refine ⟨?_, ?_⟩
  · intro hm
    obtain ⟨e, he, heq⟩ := List.mem_map.1 hm
    rw [List.mem_filter] at he
    simp at he
    exact he.2 heq
  · exact h.sublist (List.Sublist.map _ List.filter_sublist)

theorem keys_foldr (m base : Map Var) (h : (keys base).Nodup) : (keys (m.foldr (fun e t => put t e.1 e.2) base)).Nodup := by
  induction m with
  | nil => exact h
  | cons e m ih => exact keys_put _ _ _ ih

theorem get_foldr (m base : Map Var) (n : Name) :
    Variable.get (m.foldr (fun e t => put t e.1 e.2) base) n = (Variable.get m n).or (Variable.get base n) := by
  induction m with
  | nil => simp [Variable.get]
  | cons e m ih =>
    rw [List.foldr_cons, get_put, Variable.get]
    by_cases h : e.1 = n
    · simp [h]
    · rw [if_neg (fun h' => h h'.symm), if_neg h, ih]

theorem mem_get (m : Map Var) (h : (keys m).Nodup) (n : Name) (v : Var) : (n, v) ∈ m ↔ Variable.get m n = some v := by
  induction m with
  | nil => simp [Variable.get]
  | cons e m ih =>
    unfold keys at h ih
    rw [List.map_cons, List.nodup_cons] at h
    rw [Variable.get]
    by_cases he : e.1 = n
    · rw [if_pos he]
      constructor
      · intro hm
        rcases List.mem_cons.1 hm with rfl | hm
        · rfl
        · exact absurd (List.mem_map.2 ⟨_, hm, he.symm⟩) h.1
      · intro hv
        simp only [Option.some.injEq] at hv
        have : e = (n, v) := by rw [← he, ← hv]
        rw [this]
        exact List.mem_cons_self
    · rw [if_neg he, ← ih h.2, List.mem_cons]
      constructor
      · rintro (rfl | h)
        · exact absurd rfl he
        · exact h
      · exact .inr

theorem allRec_keys (g : Bool) (ss : List Scope) : (keys (allVariablesRec g ss)).Nodup := by
  induction ss with
  | nil => simp [allVariablesRec, keys]
  | cons s ss ih =>
    rw [allVariablesRec]
    apply keys_foldr
    split
    · exact ih
    · simp [keys]

theorem all_keys (g : Bool) (ss : List Scope) : (keys (allVariables g ss)).Nodup := by
  cases ss with
  | nil => simp [allVariables, keys]
  | cons s ss =>
    rw [allVariables]
    split
    · exact keys_foldr _ _ (by simp [keys])
    · exact allRec_keys _ _

theorem get_allRec (ss : List Scope) (n : Name) : Variable.get (allVariablesRec true ss) n = (locate ss n).map (·.2) := by
  induction ss with
  | nil => rfl
  | cons s ss ih =>
    rw [allVariablesRec, get_foldr, locate]
    cases hs : Variable.get s.vars n with
    | some v => simp
    | none =>
      simp only [Option.none_or]
      cases ss with
      | nil => simp [Variable.get, locate]
      | cons t ss =>
        simp only [List.isEmpty_cons, Bool.not_false, Bool.true_or, Bool.and_true, if_true, ih, Option.map_map]
        rfl

theorem get_all (ss : List Scope) (n : Name) : Variable.get (allVariables true ss) n = (locate ss n).map (·.2) := by
  cases ss with
  | nil => rfl
  | cons s ss =>
    rw [allVariables]
    cases ss with
    | nil =>
      simp only [List.isEmpty_nil, Bool.true_or, if_true, entries, get_foldr, locate]
      cases Variable.get s.vars n <;> simp [Variable.get]
    | cons t ss =>
      simp only [List.isEmpty_cons, Bool.not_true, Bool.false_and, Bool.or_self, Bool.false_eq_true, if_false]
      exact get_allRec _ _

theorem get_inner (s : Scope) (ss : List Scope) (n : Name) : Variable.get (allVariables false (s :: ss)) n = Variable.get s.vars n := by
  rw [allVariables]
  split
  · rw [entries, get_foldr]
    simp [Variable.get]
  · rename_i h
    rw [allVariablesRec, get_foldr]
    have h2 : s.temp = false := by
      cases ht : s.temp <;> simp_all
    simp [h2, Variable.get]

/-- What is listed with `-g`. -/
theorem mem_global (sh : Shell) (n : Name) (v : Var) : (n, v) ∈ allVariables true sh.scopes ↔ ∃ d, Visible sh n d v := by
  rw [mem_get _ (all_keys _ _), get_all]
  constructor
  · intro h
    cases hl : locate sh.scopes n with
    | none => rw [hl] at h; cases h
    | some p =>
      rw [hl] at h
      obtain ⟨i, w⟩ := p
      simp at h
      subst h
      exact ⟨_, (locate_visible sh n i w hl).2⟩
  · rintro ⟨d, h⟩
    rw [(visible_locate sh n d v h).2]
    rfl

/-- What is listed without. -/
theorem mem_inner (sh : Shell) (n : Name) (v : Var) : (n, v) ∈ allVariables false sh.scopes ↔ Innermost sh n v := by
  unfold Innermost
  cases hs : sh.scopes with
  | nil => simp [allVariables, varAt, hs]
  | cons s ss =>
    rw [mem_get _ (all_keys _ _), get_inner, varAt_column]
    rw [hs]
    simp [column]

/-! ## Lines -/

theorem NameWord.of {L : Locale} {n : Name} (h : IsName L n) : NameWord L n := by
  obtain ⟨c, s, h1, h2, h3⟩ := h
  refine ⟨c, s, h1, ?_, h3⟩
  simp [isDigitChar]
  intro h
  cases hh : decide (c ≤ '9') with
  | false => simpa using hh
  | true => exact absurd ⟨h, by simpa using hh⟩ h2

theorem isName_iff {L : Locale} {n : Name} : isName L n = true ↔ IsName L n := by
  rw [isName, NameWord.isNameBy]
  constructor
  · rintro ⟨c, s, h1, h2, h3⟩
    refine ⟨c, s, h1, ?_, h3⟩
    rintro ⟨h4, h5⟩
    simp [isDigitChar] at h2
    exact absurd h5 (by simpa using h2 h4)
  · exact NameWord.of

/-- A line of a script that consists of one command. -/
theorem runLines_line (C : Config) {line rest : List Char} {c : Yash.Syntax.Command} {sh sh1 sh2 : Shell} (hne : line ≠ [])
    (hp : parseLine C.locale (line ++ rest) = some (oneCommand c, rest)) (he : execCommand C c sh = some (sh1, []))
    (h : ∀ k, rest.length < k → runLines C k rest sh1 = some (sh2, [])) :
    ∀ k, (line ++ rest).length < k → runLines C k (line ++ rest) sh = some (sh2, []) := by
  intro k hk
  have hpos : 0 < line.length := List.length_pos_iff.2 hne
  rw [List.length_append] at hk
  obtain ⟨m, rfl⟩ : ∃ m, k = m + 1 := ⟨k - 1, by omega⟩
  have hm := h m (by omega)
  rw [runLines, if_neg (by simp [hne])]
  simp only [hp, oneCommand, execList, he, hm, Option.bind_eq_bind, Option.bind_some, List.append_nil]

theorem printElements_line (L : Locale) (vs : List (List Char)) : printElements L vs = (lineOf (vs.map (quoteAsWord L))).dropLast := by
  induction vs with
  | nil => simp [printElements, lineOf]
  | cons v vs ih =>
    cases vs with
    | nil => simp [printElements, lineOf]
    | cons w vs =>
      have hl : lineOf ((w :: vs).map (quoteAsWord L)) ≠ [] := by cases vs <;> simp [lineOf]
      rw [printElements, ih]
      · simp only [List.map_cons, lineOf]
        rw [List.dropLast_append_of_ne_nil (by simp), List.dropLast_cons_of_ne_nil (by simpa using hl)]
      · simp

end Yash.Restore
