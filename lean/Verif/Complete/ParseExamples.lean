import Verif.Complete.ParseProps
import Verif.Complete.Examples
/-!
# An example for finding out what is completed
-/
set_option autoImplicit false

namespace Yash.Complete.Ex

open Expand (cLocale WordText exampleEnv)
open Spec (Open Typed Before Blanks CommandWord)

theorem blanks : Blanks cLocale where
  newline := by decide
  ascii := by
    intro c h
    simp only [cLocale, Expand.cLocale, Bool.or_eq_false_iff, beq_eq_false_iff_ne]
    constructor <;> rintro rfl <;> revert h <;> decide

/-- `x;foo ` -/
theorem before : Before cLocale ["foo".toList] "x;foo ".toList := by
  have x := Typed.char _ _ 'x' (Typed.start (L := cLocale)) (by decide) (by decide) (by decide)
  have b := Before.lastWord _ _ _ _ ';' Before.start x (by decide) (fun _ => ⟨by decide, fun n r h => by
    cases n with
    | nil => simp at h
    | cons c n => cases n <;> simp at h⟩) (by decide)
  have h := Typed.start (L := cLocale)
  have h := Typed.char _ _ 'f' h (by decide) (by decide) (by decide)
  have h := Typed.char _ _ 'o' h (by decide) (by decide) (by decide)
  have h := Typed.char _ _ 'o' h (by decide) (by decide) (by decide)
  exact Before.word _ _ _ _ ' ' b h (by decide) (fun _ => ⟨by decide, fun n r h => by
    have : '=' ∈ "foo".toList := by
      have h' : "foo".toList = n ++ '=' :: r := h
      rw [h']; simp
    exact absurd this (by decide)⟩) (by decide)

/-- `x;foo --bar='x`, then `&y` behind the cursor: the second word of the second command. -/
example : ∃ c, getContext exampleEnv () ⟨"x;foo --bar='x&y".toList, 14⟩ = some (c, ["foo".toList]) ∧
    c.src = "--bar=x".toList ∧ c.srcindex = 6 ∧ c.quote = .single ∧ c.type = .argument := by
  obtain ⟨c, h1, h2, -, h4⟩ := context_found (E := exampleEnv) Expand.cLocale_ok Expand.long64_ok blanks () before typed
    (by simp) "&y".toList
  exact ⟨c, h1, h2.src, h2.srcindex, h2.quote, h4⟩

/-- Completing it. -/
example : ∃ t' find, complete find (lecrNormal cLocale) ⟨⟨"x;foo --bar='x&y".toList, 14⟩, none⟩ =
      some ⟨⟨"x;foo ".toList ++ t' ++ ' ' :: "&y".toList, ("x;foo ".toList ++ t').length + 1⟩, none⟩ ∧
    WordText exampleEnv t' "--bar=x'y z".toList := by
  obtain ⟨c, h1, -⟩ := context_found (E := exampleEnv) Expand.cLocale_ok Expand.long64_ok blanks () before typed
    (by simp) "&y".toList
  obtain ⟨t', a, b, -⟩ := complete_in_line (E := exampleEnv) Expand.cLocale_ok Expand.long64_ok blanks blankIsSpace (by decide) ()
    (fun _ => (c, [⟨"--bar=x'y z".toList, true⟩])) ⟨⟨"x;foo --bar='x&y".toList, 14⟩, none⟩
    (cand := ⟨"--bar=x'y z".toList, true⟩) rfl before typed
    (by simp) (fun c' hc' => by
      have : some (c, ["foo".toList]) = some (c', ["foo".toList]) := h1.symm.trans hc'
      simp only [Option.some.injEq, Prod.mk.injEq, and_true] at this
      rw [this]) (by decide) rfl (by decide)
  exact ⟨t', _, a, b⟩

end Yash.Complete.Ex
