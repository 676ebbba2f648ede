import Verif.Restore.Script
/-!
# C57: what `typeset -p`, `export -p`, `readonly -p`, `local -p`, `array` and `set` print restores the variables

`C` is the shell that prints and `C'` the shell that executes what has been printed.
-/
set_option autoImplicit false

namespace Yash.Restore

open Yash.Variable
open Yash.Variable.Spec
open Yash.Restore.Spec
open Yash.Syntax Yash.Parser
open Yash.Parser.Spec
open Yash.Expand (Locale Env)

/-- Assumptions about the two shells: sorting keeps the variables, the locale is the same in both and is
sensible, and `long` is a sensible type. -/
structure Shells (C C' : Config) : Prop where
  sort : ∀ l, (C.sort l).Perm l
  locale : C'.locale = C.locale
  localeOk : LocaleOk C.locale
  long : C'.env.long.Ok

theorem Shells.listing {C C' : Config} (h : Shells C C') {b : Builtin} (hp : b = .typeset ∨ b = .local → C'.posix = false) (global ro ex : Bool) (src : Shell) :
    Restores C' (printAll C.locale C.sort b global ro ex src)
      (fun n v => (n, v) ∈ allVariables global src.scopes ∧ Printed C.locale b ro ex n v) (setsRo b) (setsEx b) := by
  intro sh hs ht hae hpre
  have hperm := h.sort (allVariables global src.scopes)
  have hnd : (keys (C.sort (allVariables global src.scopes))).Nodup := by
    unfold keys
    exact (hperm.map _).nodup_iff.2 (all_keys global src.scopes)
  have hL := h.localeOk
  rw [← h.locale] at hL
  obtain ⟨sh', l, r, o⟩ := listing_leads C' hL h.long hp (ro := ro) (ex := ex) _ hnd sh hs ht hae (by
    intro e he hpr
    rw [h.locale] at hpr
    exact hpre e.1 e.2 ⟨hperm.mem_iff.1 he, hpr⟩)
  refine ⟨sh', ?_, ?_, ?_⟩
  · have := l.run
    rw [h.locale] at this
    exact this
  · rintro n v ⟨hm, hpr⟩
    rw [h.locale] at r
    exact r (n, v) (hperm.mem_iff.2 hm) hpr
  · intro n d hn
    refine o n d fun e he heq hpr => ?_
    rw [h.locale] at hpr
    subst heq
    exact hn e.2 ⟨hperm.mem_iff.1 he, hpr⟩

theorem restores_congr {C : Config} {text : List Char} {p q : Name → Var → Prop} {ro ex ro' ex' : Var → Prop} (h : Restores C text p ro ex)
    (hpq : ∀ n v, p n v ↔ q n v) (hro : ∀ v, ro v ↔ ro' v) (hex : ∀ v, ex v ↔ ex' v) : Restores C text q ro' ex' := by
  have e1 : p = q := funext fun n => funext fun v => propext (hpq n v)
  have e2 : ro = ro' := funext fun v => propext (hro v)
  have e3 : ex = ex' := funext fun v => propext (hex v)
  rw [← e1, ← e2, ← e3]
  exact h

/-! ## The options of the printing command -/

/-- An argument list that consists of one group of options. -/
theorem parse_short (cfg : Xgetopt.Config) (a cs : List Char) (rs : List Xgetopt.Report) (hk : Xgetopt.Spec.kind cfg a = .short cs)
    (hc : Xgetopt.Spec.cluster cfg none cs = .complete rs none) : Xgetopt.Spec.parse cfg none [a] = ⟨rs, [a], [], .done⟩ := by
  have h0 : Xgetopt.Spec.parse cfg none [] = ⟨[], [], [], .done⟩ := rfl
  rw [Xgetopt.Spec.parse]
  simp only [hk, hc, h0, List.append_nil]

theorem prints_all (C : Config) (b : Builtin) (args : List (List Char)) (hargs : args = [] ∨ args = ["-p".toList]) (src : Shell) :
    typesetBuiltin C b args src =
      some (src, printAll C.locale C.sort b (decide (b = .export ∨ b = .readonly ∨ b = .set)) (decide (b = .readonly)) (decide (b = .export)) src, true) := by
  have hparse : ∃ rs, Xgetopt.Spec.parse (C.getopt b) none args = ⟨rs, args, [], .done⟩ ∧
      ∃ p, Flags.ofReports rs = ⟨false, false, p, false, false, false, false⟩ := by
    rcases hargs with rfl | rfl
    · exact ⟨[], rfl, false, rfl⟩
    · refine ⟨[(⟨'p', some "print".toList, .none, true⟩, none)], ?_, true, rfl⟩
      have : ∀ p : Bool, Xgetopt.Spec.parse ⟨b.options, p, false, false, C.isDigit⟩ none ["-p".toList] =
          ⟨[(⟨'p', some "print".toList, .none, true⟩, none)], ["-p".toList], [], .done⟩ := by
        intro p
        refine parse_short _ _ ['p'] _ ?_ ?_
        · simp [Xgetopt.Spec.kind]
        · cases p <;> cases b <;> rfl
      exact this C.posix
  obtain ⟨rs, h1, p, h2⟩ := hparse
  simp only [typesetBuiltin, h1, h2]
  cases b <;> simp [Flags.implied, typesetMain]

/-- `typeset -p` (or `typeset`) prints a script that restores the variables of the innermost scope with
their values and attributes. -/
theorem C57_typeset_partial (C C' : Config) (h : Shells C C') (hp : C'.posix = false) (args : List (List Char)) (hargs : args = [] ∨ args = ["-p".toList]) (src : Shell) :
    ∃ text, runBuiltin C .typeset args src = some (src, text, true) ∧
      Restores C' text (fun n v => Innermost src n v ∧ n.head? ≠ some '=') (fun v => v.readonly = true) (fun v => v.exported = true) := by
  refine ⟨_, prints_all C .typeset args hargs src, ?_⟩
  refine restores_congr (h.listing (b := .typeset) (fun _ => hp) false false false src) ?_ (fun _ => Iff.rfl) (fun _ => Iff.rfl)
  intro n v
  rw [← mem_inner]
  constructor
  · rintro ⟨h1, h2⟩
    exact ⟨h1, h2.head⟩
  · rintro ⟨h1, h2⟩
    exact ⟨h1, h2, by simp, by simp, by simp, by simp⟩

/-- The same for `local`. -/
theorem C57_local_partial (C C' : Config) (h : Shells C C') (hp : C'.posix = false) (args : List (List Char)) (hargs : args = [] ∨ args = ["-p".toList]) (src : Shell) :
    ∃ text, runBuiltin C .local args src = some (src, text, true) ∧
      Restores C' text (fun n v => Innermost src n v ∧ n.head? ≠ some '=') (fun v => v.readonly = true) (fun v => v.exported = true) := by
  refine ⟨_, prints_all C .local args hargs src, ?_⟩
  refine restores_congr (h.listing (b := .«local») (fun _ => hp) false false false src) ?_ (fun _ => Iff.rfl) (fun _ => Iff.rfl)
  intro n v
  rw [← mem_inner]
  constructor
  · rintro ⟨h1, h2⟩
    exact ⟨h1, h2.head⟩
  · rintro ⟨h1, h2⟩
    exact ⟨h1, h2, by simp, by simp, by simp, by simp⟩

/-- `typeset -g` and `typeset -gp` do this for all variables that are visible. -/
theorem C57_typeset_global_partial (C C' : Config) (h : Shells C C') (hC : C.posix = false) (hp : C'.posix = false) (args : List (List Char))
    (hargs : args = ["-g".toList] ∨ args = ["-gp".toList]) (src : Shell) :
    ∃ text, runBuiltin C .typeset args src = some (src, text, true) ∧
      Restores C' text (fun n v => (∃ d, Visible src n d v) ∧ n.head? ≠ some '=') (fun v => v.readonly = true) (fun v => v.exported = true) := by
  have hrun : runBuiltin C .typeset args src = some (src, printAll C.locale C.sort .typeset true false false src, true) := by
    have hparse : ∃ rs, Xgetopt.Spec.parse (C.getopt .typeset) none args = ⟨rs, args, [], .done⟩ ∧
        ∃ p, Flags.ofReports rs = ⟨false, true, p, false, false, false, false⟩ := by
      simp only [Config.getopt, hC]
      rcases hargs with rfl | rfl
      · exact ⟨[(⟨'g', some "global".toList, .none, false⟩, none)],
          parse_short _ _ ['g'] _ (by simp [Xgetopt.Spec.kind]) rfl, false, rfl⟩
      · exact ⟨[(⟨'g', some "global".toList, .none, false⟩, none), (⟨'p', some "print".toList, .none, true⟩, none)],
          parse_short _ _ ['g', 'p'] _ (by simp [Xgetopt.Spec.kind]) rfl, true, rfl⟩
    obtain ⟨rs, h1, p, h2⟩ := hparse
    simp only [runBuiltin, typesetBuiltin, h1, h2]
    simp [Flags.implied, typesetMain]
  refine ⟨_, hrun, ?_⟩
  refine restores_congr (h.listing (b := .typeset) (fun _ => hp) true false false src) ?_ (fun _ => Iff.rfl) (fun _ => Iff.rfl)
  intro n v
  rw [← mem_global]
  constructor
  · rintro ⟨h1, h2⟩
    exact ⟨h1, h2.head⟩
  · rintro ⟨h1, h2⟩
    exact ⟨h1, h2, by simp, by simp, by simp, by simp⟩

/-- `export -p` (or `export`) prints a script that sets and exports all exported variables, also in the
POSIXly-correct mode. -/
theorem C57_export_partial (C C' : Config) (h : Shells C C') (args : List (List Char)) (hargs : args = [] ∨ args = ["-p".toList]) (src : Shell) :
    ∃ text, runBuiltin C .export args src = some (src, text, true) ∧
      Restores C' text (fun n v => (∃ d, Visible src n d v) ∧ v.exported = true ∧ n.head? ≠ some '=') (fun _ => False) (fun _ => True) := by
  refine ⟨_, prints_all C .export args hargs src, ?_⟩
  refine restores_congr (h.listing (b := .«export») (by simp) true false true src) ?_ (fun _ => Iff.rfl) (fun _ => Iff.rfl)
  intro n v
  rw [← mem_global]
  constructor
  · rintro ⟨h1, h2⟩
    exact ⟨h1, h2.ex rfl, h2.head⟩
  · rintro ⟨h1, h2, h3⟩
    exact ⟨h1, h3, by simp, fun _ => h2, by simp, by simp⟩

/-- `readonly -p` (or `readonly`) prints a script that sets all read-only variables and makes them
read-only, also in the POSIXly-correct mode. -/
theorem C57_readonly_partial (C C' : Config) (h : Shells C C') (args : List (List Char)) (hargs : args = [] ∨ args = ["-p".toList]) (src : Shell) :
    ∃ text, runBuiltin C .readonly args src = some (src, text, true) ∧
      Restores C' text (fun n v => (∃ d, Visible src n d v) ∧ v.readonly = true ∧ n.head? ≠ some '=') (fun _ => True) (fun _ => False) := by
  refine ⟨_, prints_all C .readonly args hargs src, ?_⟩
  refine restores_congr (h.listing (b := .«readonly») (by simp) true true false src) ?_ (fun _ => Iff.rfl) (fun _ => Iff.rfl)
  intro n v
  rw [← mem_global]
  constructor
  · rintro ⟨h1, h2⟩
    exact ⟨h1, h2.ro rfl, h2.head⟩
  · rintro ⟨h1, h2, h3⟩
    exact ⟨h1, h3, fun _ => h2, by simp, by simp, by simp⟩

/-- `set` prints a script that assigns all variables that have a value and can be assigned. -/
theorem C57_set_partial (C C' : Config) (h : Shells C C') (src : Shell) :
    ∃ text, runBuiltin C .set [] src = some (src, text, true) ∧
      Restores C' text (fun n v => (∃ d, Visible src n d v) ∧ n.head? ≠ some '=' ∧
        match v.value with
        | .scalar none => False
        | .scalar (some _) => IsName C.locale n
        | .array _ => True) (fun _ => False) (fun _ => False) := by
  refine ⟨_, prints_all C .set [] (.inl rfl) src, ?_⟩
  refine restores_congr (h.listing (b := .set) (by simp) true false false src) ?_ (fun _ => Iff.rfl) (fun _ => Iff.rfl)
  intro n v
  rw [← mem_global]
  constructor
  · rintro ⟨h1, h2⟩
    refine ⟨h1, h2.head, ?_⟩
    obtain ⟨h3, h4⟩ := h2.set rfl
    cases hv : v.value with
    | array vs => trivial
    | scalar w =>
      cases w with
      | none => exact absurd hv h3
      | some w => exact h4 ⟨_, hv⟩
  · rintro ⟨h1, h2, h3⟩
    refine ⟨h1, h2, by simp, by simp, fun _ => ?_, by simp⟩
    cases hv : v.value with
    | array vs => simp
    | scalar w =>
      rw [hv] at h3
      cases w with
      | none => exact h3.elim
      | some w => exact ⟨by simp, fun _ => h3⟩

/-- `array` prints a script that assigns all arrays. -/
theorem C57_array_partial (C C' : Config) (h : Shells C C') (src : Shell) :
    ∃ text, runBuiltin C .array [] src = some (src, text, true) ∧
      Restores C' text (fun n v => (∃ d, Visible src n d v) ∧ n.head? ≠ some '=' ∧ ∃ vs, v.value = .array vs) (fun _ => False) (fun _ => False) := by
  have he : arrayDump C.locale C.sort src = printAll C.locale C.sort .array true false false src := by
    unfold arrayDump printAll
    congr 1
    funext e
    cases hv : e.2.value with
    | array vs => rfl
    | scalar w => simp [printVariable, hv, printScalar]
  refine ⟨_, by simp only [runBuiltin]; rfl, ?_⟩
  rw [he]
  refine restores_congr (h.listing (b := .array) (by simp) true false false src) ?_ (fun _ => Iff.rfl) (fun _ => Iff.rfl)
  intro n v
  rw [← mem_global]
  constructor
  · rintro ⟨h1, h2⟩
    exact ⟨h1, h2.head, h2.array rfl⟩
  · rintro ⟨h1, h2, h3⟩
    exact ⟨h1, h2, by simp, by simp, by simp, fun _ => h3⟩

theorem parse_operands (cfg : Xgetopt.Config) (last : Option Xgetopt.Arg) (ns : List (List Char)) (h : ∀ n ∈ ns, n.head? ≠ some '-') :
    Xgetopt.Spec.parse cfg last ns = ⟨[], [], ns, .done⟩ := by
  induction ns with
  | nil => rfl
  | cons n ns ih =>
    rw [Xgetopt.Spec.parse]
    simp only [kind_operand cfg (h n List.mem_cons_self), ih fun m hm => h m (List.mem_cons_of_mem _ hm)]
    split <;> rfl

theorem prints_operands (C : Config) (b : Builtin) (f : Flags) (hf : f.print = true) (src : Shell) (ns : List Name) (heq : ∀ n ∈ ns, '=' ∉ n)
    (hv : ∀ n ∈ ns, ∃ d v, Visible src n d v) :
    ∃ es : List (Name × Var), keys es = ns ∧ (∀ e ∈ es, ∃ d, Visible src e.1 d e.2) ∧
      typesetLoop C b f ns src = some (src, es.flatMap fun e => printVariable C.locale b f.ro f.ex e.1 e.2, true) := by
  induction ns with
  | nil => exact ⟨[], rfl, by simp, rfl⟩
  | cons n ns ih =>
    obtain ⟨es, h1, h2, h3⟩ := ih (fun m hm => heq m (List.mem_cons_of_mem _ hm)) (fun m hm => hv m (List.mem_cons_of_mem _ hm))
    obtain ⟨d, v, hd⟩ := hv n List.mem_cons_self
    have hs : searchVariable src n = some v := by
      rw [searchVariable, (visible_locate src n d v hd).2]
      rfl
    refine ⟨(n, v) :: es, by rw [← h1]; rfl, ?_, ?_⟩
    · intro e he
      rcases List.mem_cons.1 he with rfl | he
      · exact ⟨d, hd⟩
      · exact h2 e he
    · have hc : (n.contains '=' || !f.print) = false := by
        rw [hf]
        simpa using heq n List.mem_cons_self
      rw [typesetLoop, if_neg (by simp only [hc]; simp)]
      simp only [h3, hs, Option.bind_eq_bind, Option.bind_some, List.flatMap_cons]

/-- `typeset -p name...` does this for the named variables. -/
theorem C57_typeset_operands_partial (C C' : Config) (h : Shells C C') (hp : C'.posix = false) (src : Shell) (ns : List Name) (hne : ns ≠ []) (hnd : ns.Nodup)
    (hns : ∀ n ∈ ns, n.head? ≠ some '-' ∧ '=' ∉ n ∧ ∃ d v, Visible src n d v) :
    ∃ text, runBuiltin C .typeset ("-p".toList :: ns) src = some (src, text, true) ∧
      Restores C' text (fun n v => n ∈ ns ∧ ∃ d, Visible src n d v) (fun v => v.readonly = true) (fun v => v.exported = true) := by
  obtain ⟨es, h1, h2, h3⟩ := prints_operands C .typeset ⟨false, false, true, false, false, false, false⟩ rfl src ns (fun n hn => (hns n hn).2.1)
    (fun n hn => (hns n hn).2.2)
  have hparse : Xgetopt.Spec.parse (C.getopt .typeset) none ("-p".toList :: ns) =
      ⟨[(⟨'p', some "print".toList, .none, true⟩, none)], ["-p".toList], ns, .done⟩ := by
    have hk : Xgetopt.Spec.kind (C.getopt .typeset) "-p".toList = .short ['p'] := by simp [Xgetopt.Spec.kind, Config.getopt]
    have hc : Xgetopt.Spec.cluster (C.getopt .typeset) none ['p'] = .complete [(⟨'p', some "print".toList, .none, true⟩, none)] none := by
      have : ∀ p : Bool, Xgetopt.Spec.cluster ⟨typesetOptions, p, false, false, C.isDigit⟩ none ['p'] =
          .complete [(⟨'p', some "print".toList, .none, true⟩, none)] none := by
        intro p
        cases p <;> rfl
      exact this C.posix
    rw [Xgetopt.Spec.parse]
    simp only [hk, hc, parse_operands _ _ ns fun n hn => (hns n hn).1, List.append_nil]
  refine ⟨es.flatMap fun e => printVariable C.locale .typeset false false e.1 e.2, ?_, ?_⟩
  · simp only [runBuiltin, typesetBuiltin, hparse]
    have hf : Flags.ofReports [((⟨'p', some "print".toList, .none, true⟩, none) : Xgetopt.Report)] = ⟨false, false, true, false, false, false, false⟩ := rfl
    simp only [hf, Flags.implied, typesetMain]
    simp only [Bool.and_false, Bool.false_and, Bool.false_eq_true, if_false, List.isEmpty_iff, hne, h3]
  · intro sh hs ht hae hpre
    have hL := h.localeOk
    rw [← h.locale] at hL
    have hvis : ∀ n v, (n, v) ∈ es ↔ n ∈ ns ∧ ∃ d, Visible src n d v := by
      intro n v
      constructor
      · intro hm
        exact ⟨h1 ▸ List.mem_map.2 ⟨_, hm, rfl⟩, h2 _ hm⟩
      · rintro ⟨hm, d, hd⟩
        rw [← h1] at hm
        obtain ⟨⟨n', v'⟩, he, rfl⟩ := List.mem_map.1 hm
        obtain ⟨d', hd'⟩ := h2 _ he
        have e1 := (visible_locate src _ _ _ hd).2
        have e2 := (visible_locate src _ _ _ hd').2
        simp only at e2
        rw [e1] at e2
        simp only [Option.some.injEq, Prod.mk.injEq] at e2
        rw [e2.2]
        exact he
    have hprinted : ∀ e ∈ es, Printed C'.locale .typeset false false e.1 e.2 := by
      intro e he
      refine ⟨?_, by simp, by simp, by simp, by simp⟩
      have hm : e.1 ∈ ns := h1 ▸ List.mem_map.2 ⟨e, he, rfl⟩
      intro hh
      refine (hns e.1 hm).2.1 ?_
      cases hn : e.1 with
      | nil => rw [hn] at hh; cases hh
      | cons c s => rw [hn] at hh; simp at hh; simp [hh]
    obtain ⟨sh', l, r, o⟩ := listing_leads C' hL h.long (b := .typeset) (fun _ => hp) (ro := false) (ex := false) es (h1 ▸ hnd) sh hs ht hae (by
      intro e he _
      exact hpre e.1 e.2 ((hvis _ _).1 he))
    refine ⟨sh', ?_, ?_, ?_⟩
    · have := l.run
      rw [h.locale] at this
      exact this
    · intro n v hc
      exact r (n, v) ((hvis n v).2 hc) (hprinted _ ((hvis n v).2 hc))
    · intro n d hn
      refine o n d fun e he heq _ => ?_
      subst heq
      exact hn e.2 ((hvis _ _).1 he)

/-! ## Examples -/

/-- A shell for examples. -/
def demoEnv : Env Shell where
  posix := false
  unsetOk := true
  braceexpand := true
  glob := true
  nullglob := true
  emptylast := false
  locale := Yash.Expand.cLocale
  long := Yash.Expand.long64
  chars := Fnmatch.asciiLocale
  getvar := fun _ _ => none
  get := fun _ _ => .notFound
  dirEntry := fun _ _ => none
  homeOf := fun _ => none
  set := fun s _ _ => (s, true)
  setElement := fun s _ _ _ => (s, true)
  cmdsub := fun s _ => (s, some [])
  arith := fun s _ => (s, some [])
  index := fun s _ => (s, some 1)
  isName := fun _ => true
  wglob := fun _ _ => [['f']]

def demoConfig (posix : Bool) : Config where
  posix := posix
  isDigit := fun c => decide ('0' ≤ c) && decide (c ≤ '9')
  seed := fun _ => false
  sort := id
  env := demoEnv

theorem demo_shells (p q : Bool) : Shells (demoConfig p) (demoConfig q) where
  sort := fun l => List.Perm.refl l
  locale := rfl
  localeOk := cLocale_localeOk
  long := Yash.Expand.long64_ok

/-- A shell with an exported string that has to be quoted, a read-only array, a variable without a value
whose name has to be quoted, and a hidden variable of the shell itself. -/
def demoSource : Shell where
  scopes := [⟨[("x".toList, ⟨.scalar (some "it's $1".toList), true, false, false, .none⟩),
    ("a".toList, ⟨.array ["".toList, "b c".toList], false, true, true, .none⟩),
    ("p-q".toList, ⟨.scalar none, true, true, true, .none⟩),
    ("=i".toList, ⟨.scalar (some "1".toList), false, false, false, .none⟩)], false, []⟩]
  environ := []
  allexport := false
  randomActive := false
  cmdhash := []

/-- The shell where they are restored: it has another value of `x`, which is hidden by a temporary one, and a read-only `y`. -/
def demoTarget : Shell :=
  (runAll (initEnvironment [("x".toList, "old".toList)]) [.typeset "y".toList (some "kept".toList) ⟨true, true, false, false⟩, .enter true,
    .assign "x".toList (.scalar (some "tmp".toList)) .temp true]).getD (initEnvironment [])

theorem demoTarget_sane : Sane demoTarget := by
  refine C25_sane (fun _ => true) (fun _ _ => True) _ (runAll_reachable [.typeset "y".toList (some "kept".toList) ⟨true, true, false, false⟩, .enter true,
    .assign "x".toList (.scalar (some "tmp".toList)) .temp true] (initEnvironment [("x".toList, "old".toList)]) _ (.start _ (by decide)) ?_)
  rw [demoTarget]
  cases h : runAll (initEnvironment [("x".toList, "old".toList)]) [.typeset "y".toList (some "kept".toList) ⟨true, true, false, false⟩, .enter true,
    .assign "x".toList (.scalar (some "tmp".toList)) .temp true] with
  | none =>
    have : (runAll (initEnvironment [("x".toList, "old".toList)]) [.typeset "y".toList (some "kept".toList) ⟨true, true, false, false⟩, .enter true,
      .assign "x".toList (.scalar (some "tmp".toList)) .temp true]).isSome = true := by decide +kernel
    rw [h] at this
    cases this
  | some s => rfl

theorem demoTarget_top : TopLevel demoTarget := by
  intro d hd
  obtain ⟨s, h1, h2⟩ := hd
  match d, h1 with
  | 0, _ => rfl
  | 1, h1 =>
    have : demoTarget.scopes.reverse[1]? = some ⟨[("x".toList, ⟨.scalar (some "tmp".toList), true, false, false, .none⟩)], true, []⟩ := rfl
    rw [this] at h1
    cases h1
    cases h2
  | d + 2, h1 =>
    have : demoTarget.scopes.reverse[d + 2]? = none := rfl
    rw [this] at h1
    cases h1

/-- What is printed. -/
theorem demo_prints : runBuiltin (demoConfig false) .typeset ["-p".toList] demoSource = some (demoSource,
    "typeset -x x=it\\''s $1'\na=('' 'b c')\ntypeset -r a\ntypeset -xr p-q\n".toList, true) := by
  have h := prints_all (demoConfig false) .typeset _ (.inr rfl) demoSource
  rw [show runBuiltin (demoConfig false) .typeset ["-p".toList] demoSource = typesetBuiltin (demoConfig false) .typeset ["-p".toList] demoSource from rfl, h]
  exact congrArg (fun t => some (demoSource, t, true)) (by decide +kernel)

theorem demoSource_chosen (n : Name) (v : Var) (h : Innermost demoSource n v ∧ n.head? ≠ some '=') :
    (n = "x".toList ∧ v = ⟨.scalar (some "it's $1".toList), true, false, false, .none⟩) ∨
    (n = "a".toList ∧ v = ⟨.array ["".toList, "b c".toList], false, true, true, .none⟩) ∨
    (n = "p-q".toList ∧ v = ⟨.scalar none, true, true, true, .none⟩) := by
  obtain ⟨h1, h2⟩ := h
  have h3 : (demoSource.scopes.head?.bind fun s => (s.vars.find? fun e => e.1 = n).map (·.2)) = some v := h1
  simp only [demoSource, List.head?_cons, Option.bind_some, Option.map_eq_some_iff] at h3
  obtain ⟨⟨n', v'⟩, h4, rfl⟩ := h3
  have h5 := List.find?_some h4
  have h6 := List.mem_of_find?_eq_some h4
  simp only [decide_eq_true_eq] at h5
  subst h5
  simp only [List.mem_cons, Prod.mk.injEq, List.not_mem_nil, or_false] at h6
  rcases h6 with ⟨rfl, rfl⟩ | ⟨rfl, rfl⟩ | ⟨rfl, rfl⟩ | ⟨rfl, rfl⟩
  · exact .inl ⟨rfl, rfl⟩
  · exact .inr (.inl ⟨rfl, rfl⟩)
  · exact .inr (.inr ⟨rfl, rfl⟩)
  · exact absurd rfl h2

/-- The listing restores the three variables in the other shell. -/
example : ∃ sh', runScript (demoConfig false) "typeset -x x=it\\''s $1'\na=('' 'b c')\ntypeset -r a\ntypeset -xr p-q\n".toList demoTarget = some (sh', []) ∧
    Restored demoTarget sh' "x".toList (.scalar (some "it's $1".toList)) False True ∧
    Restored demoTarget sh' "a".toList (.array ["".toList, "b c".toList]) True False ∧
    Restored demoTarget sh' "p-q".toList (.scalar none) True True ∧
    varAt sh' 0 "y".toList = some ⟨.scalar (some "kept".toList), false, true, true, .none⟩ := by
  obtain ⟨text, h1, h2⟩ := C57_typeset_partial _ _ (demo_shells false false) rfl _ (.inr rfl) demoSource
  rw [demo_prints] at h1
  cases h1
  obtain ⟨sh', h3, h4, h5⟩ := h2 demoTarget demoTarget_sane demoTarget_top rfl (by
    intro n v h
    rcases demoSource_chosen n v h with ⟨rfl, rfl⟩ | ⟨rfl, rfl⟩ | ⟨rfl, rfl⟩
    · refine ⟨⟨by decide, by decide⟩, ?_⟩
      intro u hu
      have : varAt demoTarget 0 "x".toList = some ⟨.scalar (some "old".toList), true, false, false, .none⟩ := rfl
      rw [this] at hu
      cases hu
      exact ⟨rfl, fun h => by cases h⟩
    · refine ⟨⟨'a', [], rfl, by decide, by decide⟩, ?_⟩
      intro u hu
      have : varAt demoTarget 0 "a".toList = none := rfl
      rw [this] at hu
      cases hu
    · refine ⟨⟨by decide, by decide⟩, ?_⟩
      intro u hu
      have : varAt demoTarget 0 "p-q".toList = none := rfl
      rw [this] at hu
      cases hu)
  refine ⟨sh', h3, ?_, ?_, ?_, ?_⟩
  · have := h4 "x".toList _ ⟨rfl, by decide⟩
    simpa only [Bool.false_eq_true, eq_self] using this
  · have := h4 "a".toList _ ⟨rfl, by decide⟩
    simpa only [Bool.false_eq_true, eq_self] using this
  · have := h4 "p-q".toList _ ⟨rfl, by decide⟩
    simpa only [Bool.false_eq_true, eq_self] using this
  · rw [h5 "y".toList 0 fun v h => ?_]
    · rfl
    · rcases demoSource_chosen _ v h with ⟨h, _⟩ | ⟨h, _⟩ | ⟨h, _⟩ <;> exact absurd h (by decide)

end Yash.Restore
