import Verif.Glob.Model
import Verif.Glob.Spec
/-!
# The steps of the search
-/
set_option autoImplicit false

namespace Yash.Glob

open Fnmatch (Compiled Locale)

theorem collect_some {l : List (Option (List Path))} {res : List Path} (h : collect l = some res) :
    (∀ x ∈ l, ∃ y, x = some y) ∧ ∀ r, r ∈ res ↔ ∃ y, some y ∈ l ∧ r ∈ y := by
  induction l generalizing res with
  | nil =>
    simp only [collect, Option.some.injEq] at h
    subst h
    simp
  | cons x l ih =>
    cases x with
    | none => simp [collect] at h
    | some y =>
      simp only [collect] at h
      cases hc : collect l with
      | none => rw [hc] at h; cases h
      | some r' =>
        rw [hc] at h
        simp only [Option.some.injEq] at h
        subst h
        obtain ⟨h1, h2⟩ := ih hc
        refine ⟨?_, ?_⟩
        · intro x hx
          rcases List.mem_cons.mp hx with rfl | hx
          · exact ⟨y, rfl⟩
          · exact h1 x hx
        · intro r
          rw [List.mem_append, h2]
          simp only [List.mem_cons, Option.some.injEq, exists_eq_or_imp, or_and_right, exists_or,
            exists_eq_left]

theorem collect_isSome {l : List (Option (List Path))} (h : ∀ x ∈ l, ∃ y, x = some y) :
    ∃ res, collect l = some res := by
  induction l with
  | nil => exact ⟨[], rfl⟩
  | cons x l ih =>
    obtain ⟨y, rfl⟩ := h x (by simp)
    obtain ⟨r, hr⟩ := ih (fun x hx => h x (by simp [hx]))
    exact ⟨y ++ r, by simp [collect, hr]⟩

theorem mem_uniqueNames {l : List Path} {n : Path} : n ∈ uniqueNames l ↔ n ∈ l := by
  induction l with
  | nil => simp [uniqueNames]
  | cons m l ih =>
    unfold uniqueNames
    split
    · rename_i h
      rw [ih, List.mem_cons]
      constructor
      · exact Or.inr
      · rintro (rfl | h')
        · exact h
        · exact h'
    · rw [List.mem_cons, List.mem_cons, ih]

theorem nodup_uniqueNames (l : List Path) : (uniqueNames l).Nodup := by
  induction l with
  | nil => simp [uniqueNames]
  | cons m l ih =>
    unfold uniqueNames
    split
    · exact ih
    · rename_i h
      exact List.nodup_cons.mpr ⟨by rwa [mem_uniqueNames], ih⟩

theorem activate_length (cs : List Comp) (as : List Nat) : (activate cs as).length = as.length := by
  induction cs generalizing as with
  | nil => simp [activate]
  | cons c cs ih =>
    cases as with
    | nil => simp [activate]
    | cons a as =>
      cases as with
      | nil => cases c <;> simp [activate, ih]
      | cons b as => cases c <;> simp [activate, ih]

theorem mem_activeLiterals {cs : List Comp} {as : List Nat} {k i : Nat} {n : Path} :
    (i, n) ∈ activeLiterals k cs as ↔
      ∃ j, i = k + j ∧ cs[j]? = some (.literal n) ∧ ∃ a, as[j]? = some a ∧ a ≠ 0 := by
  induction cs generalizing as k with
  | nil => simp [activeLiterals]
  | cons c cs ih =>
    cases as with
    | nil => simp [activeLiterals]
    | cons a as =>
      have shift : (∃ j, i = k + 1 + j ∧ cs[j]? = some (.literal n) ∧ ∃ a, as[j]? = some a ∧ a ≠ 0) ↔
          ∃ j, i = k + (j + 1) ∧ (c :: cs)[j + 1]? = some (.literal n) ∧
            ∃ a', (a :: as)[j + 1]? = some a' ∧ a' ≠ 0 := by
        simp only [List.getElem?_cons_succ]
        constructor <;> rintro ⟨j, h, h'⟩ <;> exact ⟨j, by omega, h'⟩
      have split : ∀ P : Nat → Prop, (∃ j, P j) ↔ P 0 ∨ ∃ j, P (j + 1) := by
        intro P
        constructor
        · rintro ⟨j, h⟩
          cases j with
          | zero => exact Or.inl h
          | succ j => exact Or.inr ⟨j, h⟩
        · rintro (h | ⟨j, h⟩)
          · exact ⟨_, h⟩
          · exact ⟨_, h⟩
      rw [split]
      cases c with
      | literal m =>
        simp only [activeLiterals]
        split
        · rename_i ha
          rw [List.mem_cons, ih, shift]
          apply or_congr
          · simp only [Prod.mk.injEq, Nat.add_zero, List.getElem?_cons_zero, Option.some.injEq,
              Comp.literal.injEq, exists_eq_left', ne_eq]
            constructor
            · rintro ⟨rfl, rfl⟩
              exact ⟨rfl, rfl, ha⟩
            · rintro ⟨rfl, rfl, -⟩
              exact ⟨rfl, rfl⟩
          · exact Iff.rfl
        · rename_i ha
          rw [ih, shift]
          simp only [List.getElem?_cons_zero, Option.some.injEq, exists_eq_left', ha, and_false,
            false_or]
      | «match» x =>
        simp only [activeLiterals]
        rw [ih, shift]
        simp
      | recsearch f h =>
        simp only [activeLiterals]
        rw [ih, shift]
        simp

theorem activeMatchers_iff {cs : List Comp} {as : List Nat} :
    activeMatchers cs as = true ↔
      ∃ (j : Nat) (c : Comp) (a : Nat), cs[j]? = some c ∧ (∀ n, c ≠ .literal n) ∧ as[j]? = some a ∧ a ≠ 0 := by
  induction cs generalizing as with
  | nil => simp [activeMatchers]
  | cons c cs ih =>
    cases as with
    | nil => simp [activeMatchers]
    | cons a as =>
      have split : ∀ P : Nat → Prop, (∃ j, P j) ↔ P 0 ∨ ∃ j, P (j + 1) := by
        intro P
        constructor
        · rintro ⟨j, h⟩
          cases j with
          | zero => exact Or.inl h
          | succ j => exact Or.inr ⟨j, h⟩
        · rintro (h | ⟨j, h⟩)
          · exact ⟨_, h⟩
          · exact ⟨_, h⟩
      rw [split]
      simp only [List.getElem?_cons_zero, List.getElem?_cons_succ, Option.some.injEq]
      cases c <;> simp only [activeMatchers, Bool.or_eq_true, bne_iff_ne, ih] <;> simp

end Yash.Glob
