import Verif.Alias.BuiltinProps
/-! # The `alias` and `unalias` built-ins: examples -/
set_option autoImplicit false

namespace Yash.Alias

open Spec

def demoAlias : Config where
  locale := Yash.Expand.cLocale
  posix := false
  isDigit := fun c => decide ('0' ≤ c ∧ c ≤ '9')
  sort := id

def demoAliasEnv : List Alias → Expand.Env (List Alias) := fun _ => {
  posix := false, unsetOk := true, braceexpand := true, glob := true, nullglob := true, emptylast := false, locale := Yash.Expand.cLocale, long := Yash.Expand.long64,
  chars := Fnmatch.asciiLocale, getvar := fun _ _ => none, get := fun _ _ => .notFound, dirEntry := fun _ _ => none, homeOf := fun _ => none, set := fun s _ _ => (s, true),
  setElement := fun s _ _ _ => (s, true), cmdsub := fun s _ => (s, some []), arith := fun s _ => (s, some []), index := fun s _ => (s, some 1), isName := fun _ => true,
  wglob := fun _ _ => [] }

theorem demo_valid (n : Str) (h : n ≠ [] ∧ n.all (isAliasNameChar demoAlias.locale) = true) : ValidName demoAlias.locale n :=
  (valid_iff _ _).2 ⟨h.1, List.all_eq_true.1 h.2⟩

/-- The name of an alias is printed without quotes. After `alias 'a{b,c}=x'` the command that `alias -p` prints defines two other aliases when it is
executed, and not that one. -/
theorem name_unquoted : ∃ tbl, Reachable demoAlias.locale tbl ∧ meaning tbl "a{b,c}".toList = some ("x".toList, false) ∧
    aliasBuiltin demoAlias ["-p".toList] tbl = some (tbl, "alias a{b,c}=x\n".toList, .success) ∧
    ∃ tbl2, Script.run (shell demoAlias demoAliasEnv) "alias a{b,c}=x\n".toList [] = some tbl2 ∧
      meaning tbl2 "a{b,c}".toList = none ∧ meaning tbl2 "ab=x".toList = none ∧ meaning tbl2 "ab".toList = some ("x".toList, false) ∧ meaning tbl2 "ac".toList = some ("x".toList, false) := by
  have h1 : aliasBuiltin demoAlias ["a{b,c}=x".toList] [] = some ([⟨"a{b,c}".toList, "x".toList, false⟩], [], .success) := by
    rw [bi_alias (C := demoAlias) (args := ["a{b,c}=x".toList]) .nil (.inr rfl) (ops := ["a{b,c}=x".toList]) (.plain (by decide))]
    decide +kernel
  refine ⟨_, .alias .initial rfl h1, by decide +kernel, ?_, ?_⟩
  · rw [bi_alias (C := demoAlias) (args := ["-p".toList]) (.pre (.inl rfl) .nil) (.inl rfl) (ops := []) (.plain (by decide))]
    decide +kernel
  · refine ⟨[⟨"ac".toList, "x".toList, false⟩, ⟨"ab".toList, "x".toList, false⟩], ?_, by decide +kernel⟩
    decide +kernel

theorem demoAliasEnv_ok (s : List Alias) : (demoAliasEnv s).locale = demoAlias.locale ∧ (demoAliasEnv s).long.Ok := ⟨rfl, Yash.Expand.long64_ok⟩

/-- `alias -g G='| grep' -- -x='it'\''s' G=head` … -/
def demoArgs : List Str := ["-g".toList, "--".toList, "G=| grep".toList, "-x=it's".toList, "G=head".toList, "-x".toList]

theorem demo_defines : ∃ tbl out, Reachable demoAlias.locale tbl ∧ aliasBuiltin demoAlias demoArgs [] = some (tbl, out, .success) ∧ meaning tbl "G".toList = some ("head".toList, true) ∧
    meaning tbl "-x".toList = some ("it's".toList, true) ∧ tbl.length = 2 ∧ out = "-x=it\\'s\n".toList := by
  have h : aliasBuiltin demoAlias demoArgs [] = some ([⟨"G".toList, "head".toList, true⟩, ⟨"-x".toList, "it's".toList, true⟩], "-x=it\\'s\n".toList, .success) := by
    rw [bi_alias (C := demoAlias) (args := demoArgs) (.global (.inl rfl) .nil) (.inl rfl) (ops := demoArgs.drop 2) .separated]
    decide +kernel
  exact ⟨_, _, .alias .initial rfl h, h, by decide +kernel, by decide +kernel, rfl, rfl⟩

/-- The listing of that table, executed in a shell that has other aliases. -/
example : ∃ tbl tbl2 text, Reachable demoAlias.locale tbl ∧ meaning tbl2 "ll".toList ≠ none ∧ aliasBuiltin demoAlias ["-p".toList] tbl = some (tbl, text, .success) ∧
    ∃ tbl2', Script.run (shell demoAlias demoAliasEnv) text tbl2 = some tbl2' ∧ meaning tbl2' "-x".toList = some ("it's".toList, true) ∧ meaning tbl2' "ll".toList = meaning tbl2 "ll".toList := by
  obtain ⟨tbl, out, ht, h1, h2, h3, h4, -⟩ := demo_defines
  have hl : meaning tbl "ll".toList = none ∧ ∀ n, meaning tbl n ≠ none → Plain n := by
    have h : aliasBuiltin demoAlias demoArgs [] = some ([⟨"G".toList, "head".toList, true⟩, ⟨"-x".toList, "it's".toList, true⟩], "-x=it\\'s\n".toList, .success) := by
      rw [bi_alias (C := demoAlias) (args := demoArgs) (.global (.inl rfl) .nil) (.inl rfl) (ops := demoArgs.drop 2) .separated]
      decide +kernel
    rw [h] at h1
    cases h1
    refine ⟨by decide +kernel, fun n hn => ?_⟩
    cases hm : meaning _ n with
    | none => exact absurd hm hn
    | some r =>
      obtain ⟨a, ha, rfl, -⟩ := mem_meaning hm
      rcases List.mem_cons.1 ha with rfl | ha
      · unfold Plain; decide
      · rw [List.mem_singleton.1 ha]; unfold Plain; decide
  obtain ⟨text, g1, tbl2', g2, g3⟩ := aliases_restored_partial (C := demoAlias) rfl (fun l => .refl l) Yash.Parser.cLocale_localeOk demoAliasEnv_ok
    (.pre (.inl rfl) .nil) (args := ["-p".toList]) (.plain (by simp)) ht hl.2 [⟨"ll".toList, "ls -l".toList, false⟩]
  refine ⟨tbl, _, text, ht, by decide, g1, tbl2', g2, ?_, ?_⟩
  · rw [g3, h3]; rfl
  · rw [g3, hl.1]; rfl

/-- `unalias G nope` removes `G` and fails. -/
example : ∃ tbl tbl', meaning tbl "G".toList ≠ none ∧ unaliasBuiltin demoAlias ["G".toList, "nope".toList] tbl = some (tbl', [], .failure) ∧ meaning tbl' "G".toList = none := by
  refine ⟨[⟨"G".toList, "head".toList, true⟩], ?_⟩
  obtain ⟨tbl', st, h1, h2, h3, h4⟩ := unalias_removes (C := demoAlias) (args := ["G".toList, "nope".toList]) (.plain (by decide)) (by simp) [⟨"G".toList, "head".toList, true⟩]
  refine ⟨tbl', by decide, ?_, by rw [h2]; rfl⟩
  rcases h3 with rfl | rfl
  · have := (h4.1 rfl).2 "nope".toList (by simp)
    exact absurd (by decide) this
  · exact h1

example : printAlias demoAlias.locale "-x".toList ⟨"-x".toList, "it's".toList, true⟩ true = "alias -g -- -x=it\\'s\n".toList := by decide +kernel

end Yash.Alias
