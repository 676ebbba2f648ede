import Verif.Function.Effect
import Verif.Expand.QuoteProps
/-!
# C79: a call finds the function that was defined last; read-only functions stay
-/
set_option autoImplicit false

namespace Yash.Function

open Yash.Syntax
open Yash.Variable (Name get put remove get_put get_remove)
open Yash.Restore (Builtin Flags)
open Spec

/-- A function that is not read-only can be defined; from then on a call finds that body, and all other functions are as before. A function
that is read-only cannot, and nothing changes. -/
theorem defining (C : Config) (fs : Functions) (n : Name) (c : Command) :
    (¬ReadOnly fs n → (step C fs (.define n c)).2 = true ∧ getFunction n (step C fs (.define n c)).1 = some c ∧
      ¬ReadOnly (step C fs (.define n c)).1 n ∧ ∀ k, k ≠ n → get (step C fs (.define n c)).1 k = get fs k) ∧
    (ReadOnly fs n → step C fs (.define n c) = (fs, false)) := by
  constructor
  · intro h
    cases hd : defineFunction n c fs with
    | none => exact absurd (define_none.1 hd) h
    | some fs' =>
      obtain ⟨rfl, -⟩ := define_some hd
      simp only [step, hd]
      refine ⟨trivial, by simp [getFunction, get_put], ?_, fun k hk => by rw [get_put, if_neg hk]⟩
      rintro ⟨f, hf, hr⟩
      rw [get_put, if_pos rfl] at hf
      cases hf
      cases hr
  · intro h
    simp only [step, define_none.2 h]

theorem step_body {C : Config} {fs : Functions} {n : Name} (o : Op) (h1 : ∀ c, o ≠ .define n c) (h2 : ∀ fields, o = .command fields → ¬Unsets fields n) :
    getFunction n (step C fs o).1 = getFunction n fs := by
  cases o with
  | define k c =>
    simp only [step]
    split
    · rename_i fs' h
      obtain ⟨rfl, -⟩ := define_some h
      have hk : n ≠ k := by
        rintro rfl
        exact h1 c rfl
      simp [getFunction, get_put, hk]
    · rfl
  | command fields =>
    simp only [step]
    split
    · rename_i fs' out ok h
      have : Kept fs fs' _ := run_kept h
      rcases this n with h1 | ⟨g, h1, h3⟩ | ⟨h3, -⟩
      · simp only [getFunction, h1]
      · simp only [getFunction, h1, h3]
      · exact absurd h3 (h2 fields rfl)
    · rfl

/-- A call finds the same body as long as the function is not defined again and is not an operand of `unset`, whatever else is executed. -/
theorem body_stays (C : Config) (n : Name) (os : List Op) (h1 : ∀ c, .define n c ∉ os) (h2 : ∀ fields, .command fields ∈ os → ¬Unsets fields n) :
    ∀ fs, getFunction n (after C fs os) = getFunction n fs := by
  induction os with
  | nil => intro fs; rfl
  | cons o os ih =>
    intro fs
    rw [after, ih (fun c hc => h1 c (by simp [hc])) (fun f hf => h2 f (by simp [hf]))]
    refine step_body o (fun c hc => h1 c (by simp [hc])) fun f hf => h2 f (by simp [hf])

theorem after_append (C : Config) (os os' : List Op) : ∀ fs, after C fs (os ++ os') = after C (after C fs os) os' := by
  induction os with
  | nil => intro fs; rfl
  | cons o os ih => intro fs; exact ih _

/-- A call finds the body in the last definition that was executed, if the function was not read-only then and has not been unset since. -/
theorem call_finds_last (C : Config) (n : Name) (c : Command) (os os' : List Op) (hr : ¬ReadOnly (after C [] os) n)
    (h1 : ∀ c, .define n c ∉ os') (h2 : ∀ fields, .command fields ∈ os' → ¬Unsets fields n) :
    getFunction n (after C [] (os ++ .define n c :: os')) = some c := by
  rw [after_append, after, body_stays C n os' h1 h2]
  exact ((defining C _ n c).1 hr).2.1

/-! ## Read-only functions -/

/-- Once a function is read-only it stays so with the same body, whatever is executed afterwards: every definition of it is refused. -/
theorem readonly_stays (C : Config) (n : Name) (os os' : List Op) (hr : ReadOnly (after C [] os) n) :
    ReadOnly (after C [] (os ++ os')) n ∧ getFunction n (after C [] (os ++ os')) = getFunction n (after C [] os) ∧
      ∀ c, step C (after C [] (os ++ os')) (.define n c) = (after C [] (os ++ os'), false) := by
  obtain ⟨f, hf, hr⟩ := hr
  have h := after_readonly (C := C) os' (after_inv os Inv.nil) hf hr
  rw [← after_append] at h
  have hro : ReadOnly (after C [] (os ++ os')) n := ⟨f, h, hr⟩
  refine ⟨hro, by simp only [getFunction, h, hf], fun c => (defining C _ n c).2 hro⟩

theorem parse_f (C : Config) (hp : C.posix = false) (b : Builtin) (hb : b = .typeset ∨ b = .readonly) (cs : List Char)
    (hcs : cs = ['f'] ∨ cs = ['f', 'r'] ∨ cs = ['f', 'p'] ∨ cs = ['f', 'p', 'r']) (rest : List (List Char)) :
    ∃ rs, Xgetopt.Spec.parse (C.getopt b.options) none (('-' :: cs) :: rest) =
      { Xgetopt.Spec.parse (C.getopt b.options) none rest with
        reports := rs ++ (Xgetopt.Spec.parse (C.getopt b.options) none rest).reports,
        used := ('-' :: cs) :: (Xgetopt.Spec.parse (C.getopt b.options) none rest).used } ∧
      Flags.ofReports rs = ⟨true, false, cs.contains 'p', cs.contains 'r', false, false, false⟩ := by
  have hk : Xgetopt.Spec.kind (C.getopt b.options) ('-' :: cs) = .short cs := by
    rcases hcs with rfl | rfl | rfl | rfl <;> simp [Xgetopt.Spec.kind, Config.getopt]
  have hc : ∃ rs, Xgetopt.Spec.cluster (C.getopt b.options) none cs = .complete rs none ∧
      Flags.ofReports rs = ⟨true, false, cs.contains 'p', cs.contains 'r', false, false, false⟩ := by
    simp only [Config.getopt, hp]
    rcases hb with rfl | rfl <;> rcases hcs with rfl | rfl | rfl | rfl <;> exact ⟨_, rfl, rfl⟩
  obtain ⟨rs, h1, h2⟩ := hc
  refine ⟨rs, ?_, h2⟩
  rw [Xgetopt.Spec.parse]
  simp only [hk, h1]

theorem parse_sep (cfg : Xgetopt.Config) (last : Option Xgetopt.Arg) (rest : List (List Char)) :
    Xgetopt.Spec.parse cfg last (['-', '-'] :: rest) = ⟨[], [['-', '-']], rest, .done⟩ := by
  rw [Xgetopt.Spec.parse]
  simp only [Xgetopt.Spec.kind]

theorem typesetLoop_readonly {L : Yash.Expand.Locale} {b : Builtin} (ns : List Name) :
    ∀ (fs : Functions), ∃ fs' ok, typesetLoop L b false true ns fs = some (fs', [], ok) ∧ (ok = true ↔ ∀ n ∈ ns, get fs n ≠ none) ∧
      ∀ k, get fs' k = if k ∈ ns then (get fs k).map (fun f => { f with readonly := true, nodelete := true }) else get fs k := by
  induction ns with
  | nil => intro fs; exact ⟨fs, true, rfl, by simp, by simp⟩
  | cons n ns ih =>
    intro fs
    rw [typesetLoop]
    cases hf : get fs n with
    | none =>
      obtain ⟨fs', ok, h1, h2, h3⟩ := ih fs
      refine ⟨fs', false, by simp [h1], by simp [hf], fun k => ?_⟩
      rw [h3]
      by_cases hk : k = n
      · subst hk; simp [hf]
      · simp [hk]
    | some f =>
      obtain ⟨fs', ok, h1, h2, h3⟩ := ih (put fs n { f with readonly := true, nodelete := true })
      refine ⟨fs', ok, by simpa using h1, ?_, fun k => ?_⟩
      · rw [h2]
        simp only [get_put, List.mem_cons, forall_eq_or_imp, hf]
        constructor
        · intro h
          refine ⟨by simp, fun k hk hn => ?_⟩
          have := h k hk
          by_cases hkn : k = n
          · subst hkn; rw [hf] at hn; cases hn
          · rw [if_neg hkn] at this; exact this hn
        · rintro ⟨-, h⟩ k hk hn
          by_cases hkn : k = n
          · rw [if_pos hkn] at hn; cases hn
          · rw [if_neg hkn] at hn; exact h k hk hn
      · rw [h3, get_put]
        by_cases hk : k = n
        · subst hk; simp [hf]
        · simp [hk]

/-- `readonly -f -- name...` and `typeset -fr -- name...`: every function that is named becomes read-only and keeps its body, and all others are
as before. The command is successful iff there are functions with all the names. -/
theorem making_readonly (C : Config) (hp : C.posix = false) (fs : Functions) (ns : List Name) (hne : ns ≠ []) (fields : List (List Char))
    (hfields : fields = "readonly".toList :: "-f".toList :: "--".toList :: ns ∨ fields = "typeset".toList :: "-fr".toList :: "--".toList :: ns) :
    ((step C fs (.command fields)).2 = true ↔ ∀ n ∈ ns, getFunction n fs ≠ none) ∧
    (∀ n, getFunction n (step C fs (.command fields)).1 = getFunction n fs) ∧
    ∀ n, ReadOnly (step C fs (.command fields)).1 n ↔ ReadOnly fs n ∨ n ∈ ns ∧ getFunction n fs ≠ none := by
  have key : ∃ b, (b = Builtin.typeset ∨ b = .readonly) ∧ runBuiltin C fields fs = typesetLoop C.locale b false true ns fs := by
    have hemp : ns.isEmpty = false := by simpa using hne
    have hr : Flags.ofReports ([] : List Xgetopt.Report) = ⟨false, false, false, false, false, false, false⟩ := rfl
    rcases hfields with rfl | rfl
    · refine ⟨.readonly, .inr rfl, ?_⟩
      obtain ⟨rs, h1, h2⟩ := parse_f C hp .readonly (.inr rfl) ['f'] (.inl rfl) ("--".toList :: ns)
      show typesetBuiltin C .readonly (['-', 'f'] :: ['-', '-'] :: ns) fs = _
      have h1' : Xgetopt.Spec.parse (C.getopt Builtin.readonly.options) none (['-', 'f'] :: ['-', '-'] :: ns) = _ := h1
      have h1' := h1'.trans (by rw [show "--".toList = ['-', '-'] from rfl, parse_sep])
      simp only [typesetBuiltin, h1', List.append_nil, h2]
      simp [Flags.implied, typesetMain, hne]
    · refine ⟨.typeset, .inl rfl, ?_⟩
      obtain ⟨rs, h1, h2⟩ := parse_f C hp .typeset (.inl rfl) ['f', 'r'] (.inr (.inl rfl)) ("--".toList :: ns)
      show typesetBuiltin C .typeset (['-', 'f', 'r'] :: ['-', '-'] :: ns) fs = _
      have h1' : Xgetopt.Spec.parse (C.getopt Builtin.typeset.options) none (['-', 'f', 'r'] :: ['-', '-'] :: ns) = _ := h1
      have h1' := h1'.trans (by rw [show "--".toList = ['-', '-'] from rfl, parse_sep])
      simp only [typesetBuiltin, h1', List.append_nil, h2]
      simp [Flags.implied, typesetMain, hne]
  obtain ⟨b, -, hrun⟩ := key
  obtain ⟨fs', ok, h1, h2, h3⟩ := typesetLoop_readonly (L := C.locale) (b := b) ns fs
  rw [h1] at hrun
  simp only [step, hrun]
  have hget : ∀ n, getFunction n fs = (get fs n).map (·.body) := by
    intro n; unfold getFunction; cases get fs n <;> rfl
  refine ⟨by rw [h2]; simp [hget], fun n => ?_, fun n => ?_⟩
  · rw [hget]
    unfold getFunction
    rw [h3]
    by_cases hn : n ∈ ns <;> cases get fs n <;> simp [hn]
  · unfold ReadOnly
    rw [h3, hget]
    by_cases hn : n ∈ ns <;> cases hf : get fs n <;> simp [hn]

/-! ## Removing functions -/

/-- `unset -f -- name...`: the functions that are named are gone unless they are read-only, and all others are as before. The command is
successful iff none of them is read-only. -/
theorem unsetting (C : Config) (os : List Op) (ns : List Name) (hne : ns ≠ []) :
    let fs := after C [] os
    let r := step C fs (.command ("unset".toList :: "-f".toList :: "--".toList :: ns))
    (r.2 = true ↔ ∀ n ∈ ns, ¬ReadOnly fs n) ∧
    ∀ n, (n ∈ ns ∧ ¬ReadOnly fs n → getFunction n r.1 = none) ∧ (n ∉ ns ∨ ReadOnly fs n → get r.1 n = get fs n) := by
  intro fs r
  have hI : Inv fs := after_inv os Inv.nil
  have hd : ∀ n, (∀ f, get fs n = some f → f.nodelete = false) ↔ ¬ReadOnly fs n := by
    intro n
    unfold ReadOnly
    constructor
    · rintro h ⟨f, hf, hr⟩
      have := h f hf
      rw [hI n f hf, hr] at this
      cases this
    · intro h f hf
      cases hr : f.nodelete with
      | false => rfl
      | true => exact absurd ⟨f, hf, by rw [← hI n f hf, hr]⟩ h
  have hrun : runBuiltin C ("unset".toList :: "-f".toList :: "--".toList :: ns) fs = some ((unsetLoop ns fs).1, [], (unsetLoop ns fs).2) := by
    have hk : Xgetopt.Spec.kind (C.getopt unsetOptions) ['-', 'f'] = .short ['f'] := by simp [Xgetopt.Spec.kind, Config.getopt]
    have hc : Xgetopt.Spec.cluster (C.getopt unsetOptions) none ['f'] = .complete [(⟨'f', some "functions".toList, .none, true⟩, none)] none := rfl
    have hparse : Xgetopt.Spec.parse (C.getopt unsetOptions) none ("-f".toList :: "--".toList :: ns) =
        ⟨[(⟨'f', some "functions".toList, .none, true⟩, none)], [['-', 'f'], ['-', '-']], ns, .done⟩ := by
      show Xgetopt.Spec.parse (C.getopt unsetOptions) none (['-', 'f'] :: ['-', '-'] :: ns) = _
      rw [Xgetopt.Spec.parse]
      simp only [hk, hc, parse_sep, List.append_nil]
    show unsetBuiltin C _ fs = _
    simp only [unsetBuiltin, hparse]
    simp [unsetsFunctions, hne]
  have hr : r = unsetLoop ns fs := by
    show step C fs _ = _
    simp only [step, hrun]
  refine ⟨?_, fun n => ⟨fun ⟨h1, h2⟩ => ?_, fun h => ?_⟩⟩
  · rw [hr]
    constructor
    · rintro h n hn ⟨f, hf, hro⟩
      rw [unsetLoop_error ns fs n f hn hf (by rw [hI n f hf, hro])] at h
      cases h
    · intro h
      exact unsetLoop_ok ns fs fun n hn => (hd n).2 (h n hn)
  · rw [hr]
    simp only [getFunction, unsetLoop_get]
    rw [if_pos ⟨h1, (hd n).2 h2⟩]
  · rw [hr, unsetLoop_get, if_neg]
    rintro ⟨h1, h2⟩
    rcases h with h | h
    · exact h h1
    · exact (hd n).1 h2 h

/-- Nothing but a definition and `unset` changes what a call finds; in particular nothing else creates functions. -/
theorem command_keeps_bodies (C : Config) (fs : Functions) (fields : List (List Char)) (n : Name) (h : ¬Unsets fields n) :
    getFunction n (step C fs (.command fields)).1 = getFunction n fs :=
  step_body _ (by simp) fun _ hf => by cases hf; exact h

/-! ## Examples -/

namespace Ex

def C : Config := ⟨Yash.Expand.cLocale, false, Char.isDigit, id⟩

def body (s : String) : Command := .group [] [.mk [.mk [.simple [] [] [[.str s.toList]]] false false] false]

def f : Name := "f".toList

def ro : Op := .command ["readonly".toList, "-f".toList, "--".toList, f]

def un : Op := .command ["unset".toList, "-f".toList, "--".toList, f]

/-- The second definition of a function replaces the first, and `typeset -fp` does not matter. -/
example : getFunction f (after C [] ([.define f (body "a")] ++ .define f (body "b") :: [.command ["typeset".toList, "-fp".toList, f]])) = some (body "b") :=
  call_finds_last C f (body "b") _ _ (by rintro ⟨g, h1, h2⟩; cases h1; cases h2) (by simp)
    (by intro fields hf; simp at hf; subst hf; simp [Unsets])

theorem ro_readonly : ReadOnly (after C [] [.define f (body "a"), ro]) f := ((making_readonly C rfl (step C [] (.define f (body "a"))).1 [f] (by simp) _ (.inl rfl)).2.2 f).2 (.inr ⟨by simp, by simp [step, defineFunction, getFunction, get_put, Variable.get]⟩)

/-- A read-only function survives `unset -f` and another definition. -/
example : getFunction f (after C [] ([.define f (body "a"), ro] ++ [un, .define f (body "b")])) = some (body "a") :=
  (readonly_stays C f _ [un, .define f (body "b")] ro_readonly).2.1.trans
    (((making_readonly C rfl (step C [] (.define f (body "a"))).1 [f] (by simp) _ (.inl rfl)).2.1 f).trans (by simp [step, defineFunction, getFunction, get_put, Variable.get]))

/-- `readonly -f -- f g` makes `f` read-only although there is no `g`, and fails. -/
example : (step C [(f, ⟨body "a", false, false⟩)] (.command ["readonly".toList, "-f".toList, "--".toList, f, "g".toList])).2 = false ∧
    ReadOnly (step C [(f, ⟨body "a", false, false⟩)] (.command ["readonly".toList, "-f".toList, "--".toList, f, "g".toList])).1 f := by
  obtain ⟨h1, -, h3⟩ := making_readonly C rfl [(f, ⟨body "a", false, false⟩)] [f, "g".toList] (by simp) _ (.inl rfl)
  refine ⟨Bool.eq_false_iff.2 fun h => ?_, (h3 f).2 (.inr ⟨by simp, by simp [getFunction, Variable.get]⟩)⟩
  exact h1.1 h "g".toList (by simp) (by simp [getFunction, Variable.get, f])

/-- `unset -f -- f` removes `f`. -/
example : getFunction f (step C (after C [] [.define f (body "a")]) un).1 = none :=
  ((unsetting C [.define f (body "a")] [f] (by simp)).2 f).1 ⟨by simp, by rintro ⟨g, h1, h2⟩; cases h1; cases h2⟩

/-- ... but not if it is read-only. -/
example : (step C (after C [] [.define f (body "a"), ro]) un).2 = false :=
  Bool.eq_false_iff.2 fun h => (unsetting C [.define f (body "a"), ro] [f] (by simp)).1.1 h f (by simp) ro_readonly

end Ex

end Yash.Function
