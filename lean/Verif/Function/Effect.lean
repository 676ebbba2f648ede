import Verif.Function.Spec
import Verif.Xgetopt.Props
/-! # What happens to functions -/
set_option autoImplicit false

namespace Yash.Function

open Yash.Syntax
open Yash.Variable (Name get put remove get_put get_remove)
open Yash.Restore (Builtin Flags)
open Spec

/-- Both flags are always set together. -/
def Inv (fs : Functions) : Prop := ∀ n f, get fs n = some f → f.nodelete = f.readonly

theorem Inv.nil : Inv [] := by intro n f h; cases h

theorem define_inv {fs fs' : Functions} {n : Name} {c : Command} (hI : Inv fs) (h : defineFunction n c fs = some fs') : Inv fs' := by
  have : fs' = put fs n ⟨c, false, false⟩ := by
    unfold defineFunction at h
    split at h
    · split at h <;> simp_all
    · simp_all
  subst this
  intro k f hf
  rw [get_put] at hf
  split at hf
  · cases hf; rfl
  · exact hI k f hf

theorem define_some {fs fs' : Functions} {n : Name} {c : Command} (h : defineFunction n c fs = some fs') :
    fs' = put fs n ⟨c, false, false⟩ ∧ ¬ReadOnly fs n := by
  unfold defineFunction at h
  split at h
  · rename_i f hf
    split at h
    · cases h
    · rename_i hr
      cases h
      refine ⟨rfl, ?_⟩
      rintro ⟨g, hg, hgr⟩
      rw [hf] at hg
      cases hg
      exact hr hgr
  · rename_i hf
    cases h
    refine ⟨rfl, ?_⟩
    rintro ⟨g, hg, -⟩
    rw [hf] at hg
    cases hg

theorem define_none {fs : Functions} {n : Name} {c : Command} : defineFunction n c fs = none ↔ ReadOnly fs n := by
  unfold defineFunction ReadOnly
  cases hf : get fs n with
  | none => simp
  | some f => cases hr : f.readonly <;> simp [hr]

/-- How one table differs from another after a built-in: functions stay as they are, are made read-only, or are removed by `unset` if
they are not read-only. -/
def Kept (fs fs' : Functions) (unset : Name → Prop) : Prop :=
  ∀ n, get fs' n = get fs n ∨
    (∃ f, get fs n = some f ∧ get fs' n = some { f with readonly := true, nodelete := true }) ∨
    (unset n ∧ get fs' n = none ∧ ∀ f, get fs n = some f → f.nodelete = false)

theorem typesetLoop_kept {L : Yash.Expand.Locale} {b : Builtin} {print ro : Bool} (ns : List Name) :
    ∀ (fs : Functions) (r : Functions × List Char × Bool), typesetLoop L b print ro ns fs = some r → Kept fs r.1 fun _ => False := by
  induction ns with
  | nil => intro fs r h; cases h; exact fun n => .inl rfl
  | cons a ns ih =>
    intro fs r h
    rw [typesetLoop] at h
    split at h
    · rename_i f hf
      split at h
      · split at h
        · simp only [Option.bind_eq_bind, Option.bind_eq_some_iff] at h
          obtain ⟨out, -, ⟨fs', out', ok⟩, h2, h⟩ := h
          cases h
          exact ih fs (fs', out', ok) h2
        · exact ih fs _ h
      · split at h
        · have := ih _ _ h
          intro n
          rcases this n with h1 | ⟨g, h1, h2⟩ | ⟨h1, -⟩
          · rw [get_put] at h1
            by_cases hn : n = a
            · subst hn
              rw [if_pos rfl] at h1
              exact .inr (.inl ⟨f, hf, h1⟩)
            · rw [if_neg hn] at h1
              exact .inl h1
          · rw [get_put] at h1
            by_cases hn : n = a
            · subst hn
              rw [if_pos rfl] at h1
              cases h1
              exact .inr (.inl ⟨f, hf, h2⟩)
            · rw [if_neg hn] at h1
              exact .inr (.inl ⟨g, h1, h2⟩)
          · exact absurd h1 id
        · exact ih _ _ h
    · simp only [Option.bind_eq_bind, Option.bind_eq_some_iff] at h
      obtain ⟨⟨fs', out', ok⟩, h2, h⟩ := h
      cases h
      exact ih fs (fs', out', ok) h2

theorem typeset_kept {C : Config} {b : Builtin} {args : List (List Char)} {fs : Functions} {r : Functions × List Char × Bool}
    (h : typesetBuiltin C b args fs = some r) : Kept fs r.1 fun _ => False := by
  simp only [typesetBuiltin] at h
  split at h
  · cases h
  · split at h
    · cases h; exact fun n => .inl rfl
    · unfold typesetMain at h
      split at h
      · cases h; exact fun n => .inl rfl
      split at h
      · cases h; exact fun n => .inl rfl
      split at h
      · cases h; exact fun n => .inl rfl
      split at h
      · cases h; exact fun n => .inl rfl
      split at h
      · cases h
      split at h
      · simp only [Option.map_eq_some_iff] at h
        obtain ⟨out, -, h⟩ := h
        cases h
        exact fun n => .inl rfl
      · exact typesetLoop_kept _ _ _ h

theorem unsetFunction_get (n : Name) (fs : Functions) (k : Name) :
    get (unsetFunction n fs).1 k = if k = n ∧ ∀ f, get fs n = some f → f.nodelete = false then none else get fs k := by
  unfold unsetFunction
  split
  · rename_i f hf
    split
    · rename_i hd
      rw [get_remove]
      by_cases hk : k = n
      · subst hk
        rw [if_pos rfl, if_pos]
        refine ⟨rfl, fun g hg => ?_⟩
        rw [hf] at hg
        cases hg
        simpa using hd
      · simp [hk]
    · rename_i hd
      rw [get_put, get_remove]
      by_cases hk : k = n
      · subst hk
        rw [if_pos rfl, if_neg, hf]
        rintro ⟨-, h⟩
        have := h f hf
        simp [this] at hd
      · simp [hk]
  · rename_i hf
    rw [get_remove]
    by_cases hk : k = n
    · simp [hk, hf]
    · simp [hk]

theorem unsetLoop_get (ns : List Name) : ∀ (fs : Functions) (k : Name),
    get (unsetLoop ns fs).1 k = if k ∈ ns ∧ ∀ f, get fs k = some f → f.nodelete = false then none else get fs k := by
  induction ns with
  | nil => intro fs k; simp [unsetLoop]
  | cons n ns ih =>
    intro fs k
    show get (unsetLoop ns (unsetFunction n fs).1).1 k = _
    rw [ih, unsetFunction_get]
    by_cases hd : ∀ f, get fs k = some f → f.nodelete = false
    · by_cases hk : k = n
      · subst hk
        rw [if_pos (c := k = k ∧ _) ⟨rfl, hd⟩, if_pos (c := k ∈ k :: ns ∧ _) ⟨by simp, hd⟩]
        exact ite_self _
      · rw [if_neg (c := k = n ∧ _) (fun h => hk h.1)]
        simp [hk]
    · have h1 : ¬(k = n ∧ ∀ f, get fs n = some f → f.nodelete = false) := by
        rintro ⟨rfl, h⟩
        exact hd h
      rw [if_neg h1, if_neg (fun h => hd h.2), if_neg (fun h => hd h.2)]

theorem unsetLoop_error (ns : List Name) : ∀ (fs : Functions) (k : Name) (f : Func), k ∈ ns → get fs k = some f → f.nodelete = true →
    (unsetLoop ns fs).2 = false := by
  induction ns with
  | nil => intro fs k f h; cases h
  | cons n ns ih =>
    intro fs k f hm hf hd
    show (!(unsetFunction n fs).2 && (unsetLoop ns (unsetFunction n fs).1).2) = false
    by_cases hk : k = n
    · subst hk
      have : (unsetFunction k fs).2 = true := by simp [unsetFunction, hf, hd]
      simp [this]
    · have hg : get (unsetFunction n fs).1 k = some f := by rw [unsetFunction_get, if_neg (fun h => hk h.1), hf]
      rw [ih _ k f ((List.mem_cons.1 hm).resolve_left hk) hg hd]
      simp

theorem unsetLoop_ok (ns : List Name) : ∀ (fs : Functions), (∀ k ∈ ns, ∀ f, get fs k = some f → f.nodelete = false) →
    (unsetLoop ns fs).2 = true := by
  induction ns with
  | nil => intro fs _; rfl
  | cons n ns ih =>
    intro fs h
    show (!(unsetFunction n fs).2 && (unsetLoop ns (unsetFunction n fs).1).2) = true
    have h1 : (unsetFunction n fs).2 = false := by
      unfold unsetFunction
      split
      · rename_i f hf
        rw [if_pos (by simp [h n (by simp) f hf])]
      · rfl
    rw [h1, ih _ ?_]
    · rfl
    · intro k hk f hf
      rw [unsetFunction_get] at hf
      split at hf
      · cases hf
      · exact h k (by simp [hk]) f hf

/-- The command is `unset`, and the name is one of its arguments. -/
def Unsets (fields : List (List Char)) (n : Name) : Prop := fields.head? = some "unset".toList ∧ n ∈ fields.tail

theorem parse_operands_mem (cfg : Xgetopt.Config) (x : List Char) (args : List (List Char)) : ∀ last,
    x ∈ (Xgetopt.Spec.parse cfg last args).operands → x ∈ args := by
  intro last hx
  exact (Yash.Xgetopt.parse_perm cfg args.length args last (Nat.le_refl _)).2.2.1.subset hx

theorem unset_kept {C : Config} {args : List (List Char)} {fs : Functions} {r : Functions × List Char × Bool}
    (h : unsetBuiltin C args fs = some r) : Kept fs r.1 fun n => n ∈ args := by
  simp only [unsetBuiltin] at h
  split at h
  · cases h
  · split at h
    · cases h; exact fun n => .inl rfl
    · split at h
      · cases h; exact fun n => .inl rfl
      · split at h
        · cases h
          intro n
          simp only [unsetLoop_get]
          split
          · rename_i hn
            exact .inr (.inr ⟨parse_operands_mem _ _ _ _ hn.1, rfl, hn.2⟩)
          · exact .inl rfl
        · cases h

theorem run_kept {C : Config} {fields : List (List Char)} {fs : Functions} {r : Functions × List Char × Bool}
    (h : runBuiltin C fields fs = some r) : Kept fs r.1 (Unsets fields) := by
  have weak : ∀ {p q : Name → Prop}, (∀ n, p n → q n) → Kept fs r.1 p → Kept fs r.1 q := by
    intro p q hpq hk n
    rcases hk n with h | h | ⟨h1, h2⟩
    · exact .inl h
    · exact .inr (.inl h)
    · exact .inr (.inr ⟨hpq n h1, h2⟩)
  cases fields with
  | nil => cases h
  | cons name args =>
    rw [runBuiltin] at h
    split at h
    · rename_i hn
      exact weak (fun n hn' => ⟨by simp [hn], hn'⟩) (unset_kept h)
    · repeat' split at h
      all_goals first
        | exact weak (fun _ h => absurd h id) (typeset_kept h)
        | cases h

theorem step_inv {C : Config} {fs : Functions} (hI : Inv fs) (o : Op) : Inv (step C fs o).1 := by
  cases o with
  | define n c =>
    simp only [step]
    split
    · rename_i fs' h
      exact define_inv hI h
    · exact hI
  | command fields =>
    simp only [step]
    split
    · rename_i fs' out ok h
      intro n f hf
      have : Kept fs fs' _ := run_kept h
      rcases this n with h1 | ⟨g, h1, h2⟩ | ⟨-, h2, -⟩
      · rw [h1] at hf; exact hI n f hf
      · rw [h2] at hf; cases hf; rfl
      · rw [h2] at hf; cases hf
    · exact hI

theorem after_inv {C : Config} (os : List Op) : ∀ {fs : Functions}, Inv fs → Inv (after C fs os) := by
  induction os with
  | nil => intro fs h; exact h
  | cons o os ih => intro fs h; exact ih (step_inv h o)

/-- A read-only function is as it was after anything. -/
theorem step_readonly {C : Config} {fs : Functions} (hI : Inv fs) (o : Op) {n : Name} {f : Func} (hf : get fs n = some f) (hr : f.readonly = true) :
    get (step C fs o).1 n = some f := by
  have hd : f.nodelete = true := by rw [hI n f hf, hr]
  cases o with
  | define k c =>
    simp only [step]
    split
    · rename_i fs' h
      obtain ⟨rfl, hk⟩ := define_some h
      rw [get_put, if_neg, hf]
      rintro rfl
      exact hk ⟨f, hf, hr⟩
    · exact hf
  | command fields =>
    simp only [step]
    split
    · rename_i fs' out ok h
      have : Kept fs fs' _ := run_kept h
      rcases this n with h1 | ⟨g, h1, h2⟩ | ⟨-, -, h3⟩
      · rw [h1, hf]
      · rw [hf] at h1
        cases h1
        rw [h2]
        cases f
        simp_all
      · rw [h3 f hf] at hd
        cases hd
    · exact hf

theorem after_readonly {C : Config} (os : List Op) : ∀ {fs : Functions}, Inv fs → ∀ {n : Name} {f : Func}, get fs n = some f → f.readonly = true →
    get (after C fs os) n = some f := by
  induction os with
  | nil => intro fs _ n f h _; exact h
  | cons o os ih => intro fs hI n f hf hr; exact ih (step_inv hI o) (step_readonly hI o hf hr) hr

end Yash.Function
