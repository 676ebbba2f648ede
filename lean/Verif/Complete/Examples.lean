import Verif.Complete.Props
/-!
# Examples and findings for C82
-/
set_option autoImplicit false

namespace Yash.Complete.Ex

open Expand (Locale cLocale WordText exampleEnv)
open Spec (Open Typed LongestPrefix)

theorem blankIsSpace : BlankIsSpace cLocale := by
  intro c
  simp [cLocale, Expand.cLocale]
  intro h
  rcases h with h | h <;> simp [h]

/-- `foo --bar='x` and the cursor at the end, the example in lineedit/complete.h:120-131. -/
def line : Buf := ⟨"foo --bar='x".toList, 12⟩
def ctxt : Ctxt :=
  { quote := .single, type := .normal, ebraced := false, vbraced := false, quoted := false, src := "--bar=x".toList,
    srcindex := 4, origindex := 12, substsrc := false }

theorem typed : Typed cLocale .single "--bar='x".toList "--bar=x".toList := by
  have h := Typed.start (L := cLocale)
  have h := Typed.char _ _ '-' h (by decide) (by decide) (by decide)
  have h := Typed.char _ _ '-' h (by decide) (by decide) (by decide)
  have h := Typed.char _ _ 'b' h (by decide) (by decide) (by decide)
  have h := Typed.char _ _ 'a' h (by decide) (by decide) (by decide)
  have h := Typed.char _ _ 'r' h (by decide) (by decide) (by decide)
  have h := Typed.char _ _ '=' h (by decide) (by decide) (by decide)
  have h := Typed.openSingle _ _ h
  exact Typed.inSingle _ _ 'x' h (by decide)

theorem onWord : OnWord cLocale ctxt line "foo ".toList "--bar='x".toList "--bar=x".toList [] .single where
  line := by decide
  typed := typed
  quote := rfl
  src := rfl
  srcindex := rfl
  origindex := rfl
  type := by decide

def one : Finder := fun _ => (ctxt, [⟨"--bar=x'y z".toList, true⟩])
def three : Finder := fun _ => (ctxt, [⟨"--bar=x y".toList, true⟩, ⟨"--bar=x'".toList, true⟩, ⟨"--bar=x y/".toList, false⟩])

example : complete one (lecrNormal cLocale) ⟨line, none⟩ = some ⟨⟨"foo --bar='x'\\''y z' ".toList, 21⟩, none⟩ := by decide +kernel
example : ∃ t', complete one (lecrNormal cLocale) ⟨line, none⟩ =
      some ⟨⟨"foo ".toList ++ t' ++ ' ' :: [], ("foo ".toList ++ t').length + 1⟩, none⟩ ∧
    WordText exampleEnv t' "--bar=x'y z".toList ∧ (CtxtType.normal = .command → NotAssignment "--bar='x".toList → NotAssignment t') :=
  one_candidate (E := exampleEnv) Expand.cLocale_ok Expand.long64_ok blankIsSpace one ⟨line, none⟩ (cand := ⟨"--bar=x'y z".toList, true⟩)
    rfl onWord rfl (by decide) rfl (by decide)

example : ∃ shown : Nat → List Char, (∀ k, Shows cLocale (three line).2 .single (shown k) k) ∧
    ∀ offsets : List Int, ∃ s1, complete three (lecrNormal cLocale) ⟨line, none⟩ = some s1 ∧
      selectMany cLocale three offsets s1 =
        let k := (((3 : Int) + offsets.sum) % ((3 : Int) + 1)).toNat
        some ⟨⟨"foo ".toList ++ shown k ++ [], ("foo ".toList ++ shown k).length⟩, some ⟨ctxt, (three line).2, k⟩⟩ :=
  going_through blankIsSpace three ⟨line, none⟩ rfl onWord rfl (by decide) (by decide) (by decide)

example : (complete three (lecrNormal cLocale) ⟨line, none⟩).bind (selectMany cLocale three [1, 1, 1]) =
    some ⟨⟨"foo --bar='x y/".toList, 15⟩, some ⟨ctxt, (three line).2, 2⟩⟩ := by decide +kernel
example : (complete three (lecrNormal cLocale) ⟨line, none⟩).bind (selectMany cLocale three [-2]) =
    some ⟨⟨"foo --bar='x'\\'''".toList, 17⟩, some ⟨ctxt, (three line).2, 1⟩⟩ := by decide +kernel

/-! All candidates. -/

def all : Finder := fun _ => ({ ctxt with substsrc := true }, [⟨"a b".toList, true⟩, ⟨"#\n".toList, true⟩])

example : complete all (lecrNormal cLocale) ⟨⟨"foo *;y".toList, 5⟩, none⟩ =
    some ⟨⟨"foo a\\ b \\#'\n' ;y".toList, 15⟩, none⟩ := by decide +kernel
example : ∃ ws : List (List Char × List Char), ws.map (·.2) = ["a b".toList, "#\n".toList] ∧ (∀ w ∈ ws, WordText exampleEnv w.1 w.2) ∧
    let text := (ws.map (·.1)).flatMap (· ++ [' '])
    let s' : State := ⟨⟨"foo ".toList ++ text ++ ";y".toList, ("foo ".toList ++ text).length⟩, none⟩
    complete all (lecrAll cLocale) ⟨⟨"foo *;y".toList, 5⟩, none⟩ = some s' ∧
    (true = true ∨ (∃ d ∈ (all line).2, ¬ ctxt.src <+: d.value) → complete all (lecrNormal cLocale) ⟨⟨"foo *;y".toList, 5⟩, none⟩ = some s') :=
  all_candidates (E := exampleEnv) Expand.cLocale_ok Expand.long64_ok blankIsSpace all ⟨⟨"foo *;y".toList, 5⟩, none⟩
    (t := ['*']) rfl rfl rfl (by decide) (by decide)

/-! ## Findings -/

/-- Where the word ends with a backslash, the first completion removes the backslash; the next selection then fails the assertion
that it is there.  Here the line is `a\` and the candidates are `ab` and `ac`. -/
theorem selection_after_backslash_fails :
    let c : Ctxt := { ctxt with quote := .normalEscaped, src := ['a'], srcindex := 0, origindex := 2 }
    let find : Finder := fun _ => (c, [⟨"ab".toList, true⟩, ⟨"ac".toList, true⟩])
    ∃ s1, complete find (lecrNormal cLocale) ⟨⟨"a\\".toList, 2⟩, none⟩ = some s1 ∧ s1.buf = ⟨['a'], 1⟩ ∧
      selectCandidate cLocale find 1 s1 = none := by
  refine ⟨_, rfl, ?_, ?_⟩ <;> decide +kernel

/-- An empty candidate vanishes where all candidates are inserted: the words no longer are the candidates. -/
theorem empty_candidate_lost : complete (fun _ => (ctxt, [⟨['a'], true⟩, ⟨[], true⟩])) (lecrAll cLocale) ⟨line, none⟩ =
    some ⟨⟨"foo a  ".toList, 7⟩, none⟩ := by
  decide +kernel

/-- So does the only candidate if it is empty and the word is a backslash. -/
theorem empty_candidate_after_backslash :
    let c : Ctxt := { ctxt with quote := .normalEscaped, src := [], srcindex := 0, origindex := 1 }
    complete (fun _ => (c, [⟨[], true⟩])) (lecrNormal cLocale) ⟨⟨['\\'], 1⟩, none⟩ = some ⟨⟨[' '], 1⟩, none⟩ := by
  decide +kernel

end Yash.Complete.Ex
