import Verif.Path.CdSpec
import Verif.Path.CanonProps
import Verif.Path.WhichProps
import Verif.Variable.Props
/-!
# Lemmas about variables and paths for `cd`
-/
set_option autoImplicit false

namespace Yash.Path

open Variable (Name Word Shell Scope setVariable locate getPathArray get visible_locate locate_visible
  sane_iff step_sane step_outcome C27_assigned C25_assign_refused varAt_congr)
open Variable.Spec (Visible varAt Sane)
open Spec

/-! ## Variables -/

theorem getvar_value (sh : Shell) (n : Name) (w : Word) : getvar sh n = some w ↔ Value sh n w := by
  unfold getvar
  constructor
  · intro h
    cases hl : locate sh.scopes n with
    | none => rw [hl] at h; cases h
    | some r =>
      obtain ⟨i, v⟩ := r
      rw [hl] at h
      simp only at h
      refine ⟨_, v, (locate_visible sh n i v hl).2, ?_⟩
      cases hv : v.value with
      | scalar o => rw [hv] at h; simp only at h; rw [h]
      | array vs => rw [hv] at h; cases h
  · rintro ⟨d, v, hv, hval⟩
    rw [(visible_locate sh n d v hv).2]
    simp only [hval]

theorem value_unique (sh : Shell) (n : Name) (v w : Word) (h : Value sh n v) (h' : Value sh n w) :
    v = w := by
  rw [← getvar_value] at h h'
  rw [h] at h'
  exact Option.some.inj h'

theorem value_congr (sh sh' : Shell) (n : Name) (w : Word) (h : ∀ d, varAt sh' d n = varAt sh d n) :
    Value sh' n w ↔ Value sh n w := by
  unfold Value Visible
  simp only [h]

/-- The path arrays of all scopes. -/
def allPaths (ss : List Scope) : List (Variable.Map (List Word)) := ss.map (·.paths)

theorem getPathArray_allPaths (n : Name) (ss tt : List Scope) (h : allPaths ss = allPaths tt) :
    getPathArray ss n = getPathArray tt n := by
  induction ss generalizing tt with
  | nil =>
    cases tt with
    | nil => rfl
    | cons t tt => cases h
  | cons s ss ih =>
    cases tt with
    | nil => cases h
    | cons t tt =>
      simp only [allPaths, List.map_cons, List.cons.injEq] at h
      rw [getPathArray, getPathArray, h.1, ih tt h.2]

theorem allPaths_modify (ss : List Scope) (f : Scope → Scope) (hf : ∀ s, (f s).paths = s.paths) :
    ∀ i, allPaths (ss.modify i f) = allPaths ss := by
  induction ss with
  | nil => intro i; cases i <;> rfl
  | cons s ss ih =>
    intro i
    cases i with
    | zero => simp [List.modify_zero_cons, allPaths, hf]
    | succ i =>
      have := ih i
      simp only [allPaths] at this
      rw [List.modify_succ_cons, allPaths, List.map_cons, this, allPaths, List.map_cons]

theorem resetPath_ordinary (n : Name) (s : Scope) (h : Variable.isPathVar n = false) :
    Variable.resetPath n s = s := by
  unfold Variable.resetPath
  rw [h]
  rfl

theorem resetUpTo_ordinary (n : Name) (h : Variable.isPathVar n = false) (ss : List Scope) :
    ∀ i, Variable.resetUpTo n i ss = ss := by
  induction ss with
  | nil => intro i; cases i <;> rfl
  | cons s ss ih =>
    intro i
    cases i with
    | zero => rw [Variable.resetUpTo, resetPath_ordinary n s h]
    | succ i => rw [Variable.resetUpTo, resetPath_ordinary n s h, ih]

theorem dropVar_paths (sh : Shell) (i : Nat) (n : Name) (v : Variable.Var)
    (h : Variable.isPathVar n = false) :
    allPaths (Variable.dropVar sh i n v).scopes = allPaths sh.scopes := by
  rw [Variable.dropVar_scopes]
  have : Variable.resetPath n = id := funext fun s => resetPath_ordinary n s h
  rw [this, List.map_id]
  apply allPaths_modify
  intro s
  rfl

theorem cleared_paths {n : Name} {b : Nat} {sh sh' : Shell} (h : Variable.Cleared n b sh sh')
    (hn : Variable.isPathVar n = false) : allPaths sh'.scopes = allPaths sh.scopes := by
  induction h with
  | refl => rfl
  | drop sh sh' i v _ _ _ _ ih => rw [ih, dropVar_paths sh i n v hn]

theorem outcome_paths {seed : Word → Bool} {sh sh' : Shell} {n : Name} {op : Variable.Op} {b : Bool}
    (h : Variable.Outcome seed sh n op sh' b) (hn : Variable.isPathVar n = false) :
    allPaths sh'.scopes = allPaths sh.scopes := by
  cases h with
  | same => rfl
  | refused val k exp f _ g => exact cleared_paths g.cleared hn
  | assigned val k exp f e _ g =>
    rw [Variable.reexportIf_scopes, Variable.store_scopes, resetUpTo_ordinary n hn,
      ← cleared_paths g.cleared hn]
    apply allPaths_modify
    intro s
    rfl
  | typeset val t f _ g =>
    rw [Variable.reexportIf_scopes, Variable.store_scopes, resetUpTo_ordinary n hn,
      ← cleared_paths g.cleared hn]
    apply allPaths_modify
    intro s
    rfl
  | edited _ i v val u =>
    rw [Variable.reexportIf_scopes]
    apply allPaths_modify
    intro s
    rfl
  | removed _ i v => exact dropVar_paths sh i n v hn

/-- What the assignment of a global scalar does. -/
structure Assigned (sh : Shell) (n : Name) (w : Word) (sh' : Shell) : Prop where
  sane : Sane sh'
  other : ∀ m, m ≠ n → ∀ d, varAt sh' d m = varAt sh d m
  value : Writable sh n → Value sh' n w ∧ Writable sh' n
  paths : Variable.isPathVar n = false → allPaths sh'.scopes = allPaths sh.scopes

theorem setVariable_assigned (seed : Word → Bool) (sh sh' : Shell) (n : Name) (w : Word) (e b : Bool)
    (hs : Sane sh) (h : setVariable seed sh n (.scalar (some w)) .global e = some (sh', b)) :
    Assigned sh n w sh' ∧ (Writable sh n → b = true) := by
  have hst : Variable.step seed sh (.assign n (.scalar (some w)) .global e) = some (sh', b) := h
  have ho := step_outcome seed sh sh' _ b n ((sane_iff sh).mp hs) rfl hst
  have hb : Writable sh n → b = true := by
    intro hw
    obtain ⟨d, _, h1, _⟩ := C25_assign_refused seed sh sh' n _ .global e b hs (by decide) hst
    cases b with
    | true => rfl
    | false =>
      obtain ⟨v, h2, h3⟩ := h1.mp rfl
      rw [hw d v h2] at h3
      cases h3
  refine ⟨⟨(sane_iff sh').mpr (ho.sane ((sane_iff sh).mp hs)), ?_, ?_, outcome_paths ho⟩, hb⟩
  · intro m hm d
    exact varAt_congr sh sh' m (ho.other.2 m hm) d
  · intro hw
    have := hb hw
    subst this
    obtain ⟨d, v, _, hc, hv, hval, hr, _⟩ := C27_assigned seed sh sh' n _ .global e hs hst
    refine ⟨⟨d, v, hv, hval⟩, ?_⟩
    intro e u hu
    rcases Nat.lt_trichotomy e d with hlt | rfl | hgt
    · rw [hc.2.2.2 e hlt] at hu
      exact hw e u hu
    · rw [hv.1] at hu
      cases hu
      exact hr
    · rw [hv.2 e hgt] at hu
      cases hu

theorem setVariable_total (seed : Word → Bool) (sh : Shell) (n : Name) (w : Word) (e : Bool)
    (hs : Sane sh) : ∃ sh' b, setVariable seed sh n (.scalar (some w)) .global e = some (sh', b) := by
  cases h : setVariable seed sh n (.scalar (some w)) .global e with
  | some r => exact ⟨r.1, r.2, rfl⟩
  | none =>
    have := (Variable.C27_no_abort seed sh (.assign n (.scalar (some w)) .global e) hs).mp h
    rcases this with ⟨h, _⟩ | ⟨_, _, _, h, _⟩ <;> cases h

theorem setScalar_assigned (seed : Word → Bool) (sh : Shell) (n : Name) (w : Word) (hs : Sane sh) :
    ∃ sh', setScalar seed sh n w = some sh' ∧ Assigned sh n w sh' := by
  obtain ⟨sh', b, h⟩ := setVariable_total seed sh n w false hs
  exact ⟨sh', by rw [setScalar, h]; rfl, (setVariable_assigned seed sh sh' n w false b hs h).1⟩

theorem writable_congr (sh sh' : Shell) (n : Name) (h : ∀ d, varAt sh' d n = varAt sh d n)
    (hw : Writable sh n) : Writable sh' n := by
  intro d v hv
  rw [h] at hv
  exact hw d v hv

/-! ## Paths -/

theorem comps_slash_append (a b : List Char) : comps (a ++ '/' :: b) = comps a ++ comps b := by
  generalize hn : a.length = n
  induction n using Nat.strongRecOn generalizing a with
  | _ n ih =>
    cases a with
    | nil => rw [List.nil_append, comps_slash]; rfl
    | cons c a =>
      rw [List.length_cons] at hn
      by_cases hc : c = '/'
      · subst hc
        rw [List.cons_append, comps_slash, comps_slash]
        exact ih a.length (by omega) a rfl
      · rw [comps_other c a hc]
        have hsplit : c :: a ++ '/' :: b = (c :: a.takeWhile (· != '/')) ++ (a.dropWhile (· != '/') ++ '/' :: b) := by
          rw [List.cons_append, List.cons_append, ← List.append_assoc, List.takeWhile_append_dropWhile]
        rw [hsplit, comps_append]
        · have := takeWhile_dropWhile_length a
          rw [ih (a.dropWhile (· != '/')).length (by omega) _ rfl]
          rfl
        · refine ⟨by simp, ?_⟩
          simp only [List.mem_cons, not_or]
          exact ⟨fun h => hc h.symm, mem_takeWhile a⟩
        · right
          rcases dropWhile_head a with h | h
          · rw [h]; rfl
          · cases hd : a.dropWhile (· != '/') with
            | nil => rw [hd] at h; cases h
            | cons d t => rw [hd] at h; exact h

theorem comps_append_slash (a b : List Char) (h : a.getLast? = some '/') :
    comps (a ++ b) = comps a ++ comps b := by
  obtain ⟨a', rfl⟩ : ∃ a', a = a' ++ ['/'] := by
    rw [List.getLast?_eq_some_iff] at h
    exact h
  rw [List.append_assoc, List.singleton_append, comps_slash_append, comps_slash_append]
  simp [comps]

theorem root_two (e : Char) (a : List Char) (h : e ≠ '/') : root ('/' :: '/' :: e :: a) = ['/', '/'] := by
  unfold root
  split
  · simp_all
  · rfl
  · rename_i hx heq
    simp only [List.cons.injEq, true_and] at heq
    exact absurd heq.symm (hx _)
  · simp_all

/-- A path with a character other than a slash has the same root as any longer path. -/
theorem root_append (a b : List Char) (h : a.dropWhile (· == '/') ≠ []) : root (a ++ b) = root a := by
  match a with
  | [] => exact absurd rfl h
  | [c] =>
    by_cases hc : c = '/'
    · subst hc; exact absurd rfl h
    · rw [List.singleton_append]
      unfold root
      split <;> simp_all
  | [c, d] =>
    by_cases hc : c = '/'
    · subst hc
      by_cases hd : d = '/'
      · subst hd; exact absurd rfl h
      · unfold root
        simp only [List.cons_append, List.nil_append]
        split <;> simp_all
    · unfold root
      simp only [List.cons_append, List.nil_append]
      split <;> simp_all
  | c :: d :: e :: a =>
    by_cases hc : c = '/'
    · subst hc
      by_cases hd : d = '/'
      · subst hd
        by_cases he : e = '/'
        · subst he; rfl
        · simp only [List.cons_append, root_two _ _ he]
      · unfold root
        simp only [List.cons_append]
        split <;> simp_all
    · unfold root
      simp only [List.cons_append]
      split <;> simp_all

theorem matchPrefix_eq (s p t : List Char) : matchPrefix s p = some t ↔ s = p ++ t := by
  induction p generalizing s with
  | nil => rw [matchPrefix]; simp
  | cons d p ih =>
    cases s with
    | nil => rw [matchPrefix]; simp
    | cons c s =>
      rw [matchPrefix]
      split
      · rename_i h; subst h; rw [ih]; simp
      · rename_i h; simp; intro h'; exact absurd h'.symm h

/-- Components with single slashes between them have no two slashes in succession. -/
theorem joined_double (cs : List Comp) (h : ∀ x ∈ cs, Good x) (a b : List Char) :
    List.intercalate ['/'] cs ≠ a ++ '/' :: '/' :: b := by
  induction cs generalizing a with
  | nil => intro h; simp [List.intercalate] at h
  | cons x cs ih =>
    have hx := h x (by simp)
    have ih := ih (fun y hy => h y (List.mem_cons_of_mem _ hy))
    cases cs with
    | nil =>
      have : List.intercalate ['/'] [x] = x := by simp [List.intercalate]
      rw [this]
      intro he
      exact hx.2 (by rw [he]; simp)
    | cons y cs =>
      have : List.intercalate ['/'] (x :: y :: cs) = x ++ '/' :: List.intercalate ['/'] (y :: cs) := by
        simp [List.intercalate, List.intersperse]
      rw [this]
      intro he
      rcases List.append_eq_append_iff.mp he with ⟨c, h1, h2⟩ | ⟨c, h1, h2⟩
      · cases c with
        | nil =>
          simp only [List.nil_append, List.cons.injEq, true_and] at h2
          have hh := joined_head (y :: cs) (fun z hz => h z (List.mem_cons_of_mem _ hz))
          rw [h2] at hh
          exact hh rfl
        | cons d c =>
          simp only [List.cons_append, List.cons.injEq] at h2
          exact ih c h2.2
      · cases c with
        | nil =>
          simp only [List.nil_append, List.cons.injEq, true_and] at h2
          have hh := joined_head (y :: cs) (fun z hz => h z (List.mem_cons_of_mem _ hz))
          rw [← h2] at hh
          exact hh rfl
        | cons d c =>
          simp only [List.cons_append, List.cons.injEq] at h2
          apply hx.2
          rw [h1, ← h2.1]
          simp

theorem startsWithDot_comps (p : List Char) :
    startsWithDot p = true ↔ (p.head? ≠ some '/' ∧
      ((comps p).head? = some dot ∨ (comps p).head? = some dotdot)) := by
  cases p with
  | nil => simp [startsWithDot, comps]
  | cons c p =>
    by_cases hc : c = '/'
    · subst hc
      constructor
      · intro h; cases h
      · rintro ⟨h, _⟩; exact absurd rfl h
    · rw [comps_other c p hc]
      simp only [List.head?_cons, Option.some.injEq, ne_eq, hc, not_false_eq_true, true_and, dot, dotdot,
        List.cons.injEq]
      match p with
      | [] => unfold startsWithDot; split <;> simp_all
      | [d] =>
        by_cases hd : d = '/'
        · subst hd; unfold startsWithDot; split <;> simp_all
        · have hb : (d != '/') = true := by simpa using hd
          simp only [List.takeWhile, hb]
          unfold startsWithDot; split <;> simp_all
      | d :: e :: p =>
        by_cases hd : d = '/'
        · subst hd; unfold startsWithDot; split <;> simp_all
        · have hb : (d != '/') = true := by simpa using hd
          by_cases he : e = '/'
          · subst he
            simp only [List.takeWhile, hb]
            unfold startsWithDot; split <;> simp_all
          · have hb2 : (e != '/') = true := by simpa using he
            simp only [List.takeWhile, hb, hb2]
            unfold startsWithDot; split <;> simp_all

end Yash.Path
