import Verif.Restore.Props
/-!
# C57: listings that do not restore the variables

Each theorem shows that a condition of `Restores`, or of the theorems in `Props.lean`, is needed.
-/
set_option autoImplicit false

namespace Yash.Restore

open Yash.Variable
open Yash.Variable.Spec
open Yash.Restore.Spec
open Yash.Syntax
open Yash.Parser
open Yash.Parser.Spec
open Yash.Expand (lineOf)

/-- A shell with one variable. -/
def oneVariable (n : Name) (v : Var) : Shell where
  scopes := [⟨[(n, v)], false, []⟩]
  environ := []
  allexport := false
  randomActive := false
  cmdhash := []

/-- A shell without variables that executes a function. -/
def inFunction : Shell where
  scopes := [⟨[], false, []⟩, ⟨[], false, []⟩]
  environ := []
  allexport := false
  randomActive := false
  cmdhash := []

theorem demo_text (p : Bool) (src : Shell) (text : List Char) (h : printAll Yash.Expand.cLocale id .typeset false false false src = text) :
    runBuiltin (demoConfig p) .typeset ["-p".toList] src = some (src, text, true) := by
  have h1 := prints_all (demoConfig p) .typeset _ (.inr rfl) src
  rw [show runBuiltin (demoConfig p) .typeset ["-p".toList] src = typesetBuiltin (demoConfig p) .typeset ["-p".toList] src from rfl, h1]
  exact congrArg (fun t => some (src, t, true)) h

theorem builtin_fails (C : Config) (args : List (List Char)) (m : Xgetopt.Err) (rs : List Xgetopt.Report) (c o : List Xgetopt.Arg)
    (h : Xgetopt.Spec.parse (C.getopt .typeset) none args = ⟨rs, c, o, .error m⟩) (hh : (Flags.ofReports rs).help = false) (sh : Shell) :
    runBuiltin C .typeset args sh = some (sh, [], false) := by
  simp only [runBuiltin, typesetBuiltin, h, hh]
  rfl

theorem builtin_none (C : Config) (hL : LocaleOk C.locale) (hR : C.env.long.Ok) (b : Builtin) (ws : List (List Char × List Char))
    (h : ∀ w ∈ ws, Literal C.locale w.1 w.2) {sh sh' : Shell} {out : List Char} (hr : runBuiltin C b (ws.map (·.2)) sh = some (sh', out, false)) :
    runScript C (lineOf (b.name :: ws.map (·.1))) sh = none := by
  have he := expand_literals (E := C.env) hL.ok hR ((b.name, b.name) :: ws) (by
    intro w hw
    rcases List.mem_cons.1 hw with rfl | hw
    · exact (builtin_nameWord hL b).literal hL.ok
    · exact h w hw) sh
  have hn : builtinNamed b.name = some b := by cases b <;> decide
  have hp := builtin_line hL b ws h []
  rw [List.append_nil] at hp
  simp only [List.map_cons] at he
  have hne : (lineOf (b.name :: ws.map (·.1))).isEmpty = false := by
    cases h : ws.map (·.1) <;> cases b <;> rfl
  rw [runScript, runLines, hne]
  simp only [Bool.false_eq_true, if_false, hp, Option.bind_eq_bind, Option.bind_some, oneCommand, execList, List.map_cons, execCommand, he, hn, hr,
    Option.bind_none]

theorem demo_kind : Xgetopt.Spec.kind ((demoConfig false).getopt .typeset) "-y=5".toList = .short "y=5".toList := rfl
theorem demo_cluster : Xgetopt.Spec.cluster ((demoConfig false).getopt .typeset) none "y=5".toList = .bad [] .noSuchOption := rfl
theorem demo_kind' : Xgetopt.Spec.kind ((demoConfig true).getopt .typeset) "-x".toList = .short "x".toList := rfl
theorem demo_cluster' : Xgetopt.Spec.cluster ((demoConfig true).getopt .typeset) none "x".toList = .bad [] .noSuchOption := rfl

/-- A variable whose name begins with a hyphen, as can come from the environment, is printed without a
`--`: the name is taken for options. -/
theorem C57_hyphen_lost (sh : Shell) :
    runBuiltin (demoConfig false) .typeset ["-p".toList] (oneVariable "-y".toList ⟨.scalar (some "5".toList), false, false, false, .none⟩) =
        some (oneVariable "-y".toList ⟨.scalar (some "5".toList), false, false, false, .none⟩, "typeset -y=5\n".toList, true) ∧
      runBuiltin (demoConfig false) .typeset ["-y=5".toList] sh = some (sh, [], false) ∧
      runScript (demoConfig false) "typeset -y=5\n".toList sh = none := by
  have h : runBuiltin (demoConfig false) .typeset ["-y=5".toList] sh = some (sh, [], false) := by
    refine builtin_fails _ _ .noSuchOption [] [] ["-y=5".toList] ?_ rfl sh
    rw [Xgetopt.Spec.parse]
    simp only [demo_kind, demo_cluster]
  refine ⟨demo_text _ _ _ (by decide +kernel), h, ?_⟩
  exact builtin_none (demoConfig false) cLocale_localeOk Yash.Expand.long64_ok .typeset [("-y=5".toList, "-y=5".toList)] (by
    intro w hw
    rw [List.mem_singleton.1 hw]
    have := operand_literal cLocale_localeOk (n := "-y".toList) (some "5".toList)
    rwa [show printOperand (if !isName Expand.cLocale "-y".toList then Expand.quoteAsWord Expand.cLocale "-y".toList else "-y".toList)
      (Option.map (Expand.quoteAsWord Expand.cLocale) (some "5".toList)) = "-y=5".toList by decide +kernel,
      show operand "-y".toList (some "5".toList) = "-y=5".toList by decide +kernel] at this) h

/-- An array whose name is not a proper name is printed as a text that is not even a command. -/
theorem C57_array_name_lost :
    runBuiltin (demoConfig false) .typeset ["-p".toList] (oneVariable "a b".toList ⟨.array ["x".toList], false, false, false, .none⟩) =
        some (oneVariable "a b".toList ⟨.array ["x".toList], false, false, false, .none⟩, "'a b'=(x)\ntypeset 'a b'\n".toList, true) ∧
      Parser.parseLine (demoConfig false).locale "'a b'=(x)\ntypeset 'a b'\n".toList = none := by
  exact ⟨demo_text _ _ _ (by decide +kernel), by decide +kernel⟩

/-- In a function, the assignment goes to the global scope and the declaration that follows makes a
local variable without a value. -/
theorem C57_array_in_function :
    runBuiltin (demoConfig false) .typeset ["-p".toList] (oneVariable "a".toList ⟨.array ["x".toList], false, true, true, .none⟩) =
        some (oneVariable "a".toList ⟨.array ["x".toList], false, true, true, .none⟩, "a=(x)\ntypeset -r a\n".toList, true) ∧
      ∃ sh' v, runScript (demoConfig false) "a=(x)\ntypeset -r a\n".toList inFunction = some (sh', []) ∧
        Visible sh' "a".toList 1 v ∧ v.value = .scalar none := by
  refine ⟨demo_text _ _ _ (by decide +kernel), ?_⟩
  have l1 := array_leads (demoConfig false) cLocale_localeOk Yash.Expand.long64_ok (n := "a".toList) ⟨'a', [], rfl, by decide, by decide⟩ ["x".toList] (sh := inFunction) rfl
  have l2 := attr_leads (demoConfig false) cLocale_localeOk Yash.Expand.long64_ok (b := .typeset) (by simp) (fun _ => rfl) (n := "a".toList) (by decide) (by decide)
    ⟨.array ["x".toList], false, true, true, .none⟩ none (sh := ⟨[⟨[], false, []⟩, ⟨[("a".toList, ⟨.array ["x".toList], false, false, false, .none⟩)], false, []⟩], [], false, false, []⟩) rfl
  have l := (l1.append l2).run
  rw [show "a".toList ++ "=(".toList ++ printElements (demoConfig false).locale ["x".toList] ++ ")\n".toList ++
    lineOf (Builtin.typeset.name :: (optsOf .typeset ⟨.array ["x".toList], false, true, true, .none⟩ ++
      [printOperand (if !isName (demoConfig false).locale "a".toList then Expand.quoteAsWord (demoConfig false).locale "a".toList else "a".toList)
        (Option.map (Expand.quoteAsWord (demoConfig false).locale) none)])) = "a=(x)\ntypeset -r a\n".toList by decide +kernel] at l
  refine ⟨_, ⟨.scalar none, false, true, true, .none⟩, l, ⟨by rfl, ?_⟩, rfl⟩
  · intro e he
    match e, he with
    | e + 2, _ => rfl

/-- In the POSIXly-correct mode, `typeset` accepts no option but `-p`, although it prints other ones. -/
theorem C57_posix_lost (sh : Shell) :
    runBuiltin (demoConfig true) .typeset ["-p".toList] (oneVariable "x".toList ⟨.scalar (some "5".toList), true, false, false, .none⟩) =
        some (oneVariable "x".toList ⟨.scalar (some "5".toList), true, false, false, .none⟩, "typeset -x x=5\n".toList, true) ∧
      runScript (demoConfig true) "typeset -x x=5\n".toList sh = none := by
  have h : runBuiltin (demoConfig true) .typeset ["-x".toList, "x=5".toList] sh = some (sh, [], false) := by
    refine builtin_fails _ _ .noSuchOption [] [] ["-x".toList, "x=5".toList] ?_ rfl sh
    rw [Xgetopt.Spec.parse]
    simp only [demo_kind', demo_cluster']
  refine ⟨demo_text _ _ _ (by decide +kernel), ?_⟩
  exact builtin_none (demoConfig true) cLocale_localeOk Yash.Expand.long64_ok .typeset [("-x".toList, "-x".toList), ("x=5".toList, "x=5".toList)] (by
    intro w hw
    simp only [List.mem_cons, List.not_mem_nil, or_false] at hw
    rcases hw with rfl | rfl
    · have := operand_literal cLocale_localeOk (n := "-x".toList) none
      rwa [show printOperand (if !isName Expand.cLocale "-x".toList then Expand.quoteAsWord Expand.cLocale "-x".toList else "-x".toList)
        (Option.map (Expand.quoteAsWord Expand.cLocale) none) = "-x".toList by decide +kernel,
        show operand "-x".toList none = "-x".toList by decide +kernel] at this
    · have := operand_literal cLocale_localeOk (n := "x".toList) (some "5".toList)
      rwa [show printOperand (if !isName Expand.cLocale "x".toList then Expand.quoteAsWord Expand.cLocale "x".toList else "x".toList)
        (Option.map (Expand.quoteAsWord Expand.cLocale) (some "5".toList)) = "x=5".toList by decide +kernel,
        show operand "x".toList (some "5".toList) = "x=5".toList by decide +kernel] at this) h

end Yash.Restore
