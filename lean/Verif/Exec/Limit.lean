import Verif.Exec.Sound3
/-!
# Execution without a bound

A bound on the depth of calls that is large enough does not matter.
-/
set_option autoImplicit false

namespace Yash.Exec
open Yash.Syntax Spec

variable {σ ω ρ ι : Type} {E : Shell σ ω ρ ι}

/-- One level of calls. -/
def step (E : Shell σ ω ρ ι) (rec : Task ι → St σ → Res σ ω) (t : Task ι) (s : St σ) : Res σ ω :=
  match t with
  | .lists l fe => lists E rec l fe s
  | .pipes first ps fe => pipes E rec first ps fe s
  | .commands cs self => commands E rec cs self s
  | .one c fe => one E rec c fe s
  | .simple r a w fe => simple E rec r a w fe s
  | .invoke k argv fe => invoke E rec k argv fe s
  | .func body args fe => funcBody E rec body args fe s
  | .nonsimple c fe => nonsimple E rec c fe s
  | .ifs cl fe => ifs E rec cl fe s
  | .cond l => cond rec l s
  | .forLoop name ws body fe => forLoop E rec name ws body fe s
  | .whileLoop w c body st => whileLoop rec w c body st s
  | .parse inp executed fe => parse E rec inp executed fe s

theorem run_succ (n : Nat) (t : Task ι) (s : St σ) : run E (n + 1) t s = step E (run E n) t s := by
  cases t <;> rfl

/-- `R` comes to agree with `L` wherever `L` has a result. -/
def Reaches (R : Nat → Task ι → St σ → Res σ ω) (L : Task ι → St σ → Res σ ω) : Prop :=
  ∀ t s, L t s ≠ .none → ∃ n, ∀ m, n ≤ m → R m t s = L t s

/-- The result depends on finitely many results of the functions called. -/
def Cont (f : (Task ι → St σ → Res σ ω) → Res σ ω) : Prop :=
  ∀ R L, Reaches R L → f L ≠ .none → ∃ n, ∀ m, n ≤ m → f (R m) = f L

theorem Cont.const (r : Res σ ω) : Cont (ι := ι) fun _ => r := fun _ _ _ _ => ⟨0, fun _ _ => rfl⟩

theorem Cont.call (t : Task ι) (s : St σ) : Cont (ω := ω) fun rec => rec t s := fun _ _ h hn => h t s hn

theorem Cont.andThen {f : (Task ι → St σ → Res σ ω) → Res σ ω} {g : (Task ι → St σ → Res σ ω) → St σ → Res σ ω}
    (hf : Cont f) (hg : ∀ s, Cont fun rec => g rec s) : Cont fun rec => (f rec).andThen (g rec) := by
  intro R L h hn
  obtain ⟨n, hn1⟩ := hf R L h (andThen_ne hn)
  cases hfl : f L with
  | none => simp only [hfl] at hn; exact absurd rfl hn
  | exit st w => exact ⟨n, fun m hm => by simp only [hn1 m hm, hfl, Res.andThen]⟩
  | ok t =>
    simp only [hfl, Res.andThen] at hn
    obtain ⟨n2, hn2⟩ := hg t R L h hn
    exact ⟨max n n2, fun m hm => by
      simp only [hn1 m (by omega), hfl, Res.andThen]; exact hn2 m (by omega)⟩

theorem Cont.ite {p : Prop} [Decidable p] {f g : (Task ι → St σ → Res σ ω) → Res σ ω} (hf : Cont f) (hg : Cont g) :
    Cont fun rec => if p then f rec else g rec := by
  by_cases h : p
  · simpa only [if_pos h] using hf
  · simpa only [if_neg h] using hg

/-- Calls whose results must all be ends of processes. -/
theorem reaches_allExits {R : Nat → Task ι → St σ → Res σ ω} {L : Task ι → St σ → Res σ ω} (h : Reaches R L)
    {α : Type} (l : List α) (f : α → Task ι) (g : α → St σ) (rs : List (Nat × ω))
    (hall : allExits (l.map fun x => L (f x) (g x)) = some rs) :
    ∃ n, ∀ m, n ≤ m → allExits (l.map fun x => R m (f x) (g x)) = some rs := by
  induction l generalizing rs with
  | nil => exact ⟨0, fun _ _ => hall⟩
  | cons x l ih =>
    simp only [List.map_cons] at hall ⊢
    cases hx : L (f x) (g x) with
    | none => rw [hx] at hall; simp [allExits] at hall
    | ok t => rw [hx] at hall; simp [allExits] at hall
    | exit st w =>
      rw [hx] at hall
      simp only [allExits, Option.map_eq_some_iff] at hall
      obtain ⟨rs', h', rfl⟩ := hall
      obtain ⟨n, hn⟩ := ih rs' h'
      obtain ⟨n2, hn2⟩ := h (f x) (g x) (by rw [hx]; simp)
      refine ⟨max n n2, fun m hm => ?_⟩
      rw [hn2 m (by omega), hx]
      simp only [allExits]
      rw [hn m (by omega)]
      rfl

theorem cont_lists (l : List AndOr) (fe : Bool) (s : St σ) : Cont fun rec => lists E rec l fe s := by
  match l with
  | [] => exact .const _
  | .mk ps async :: rest =>
    simp only [lists]
    exact .ite (.const _) (.andThen (.ite (.call _ _) (.const _)) fun s => .call _ _)

theorem cont_pipes (first : Bool) (ps : List Pipeline) (fe : Bool) (s : St σ) : Cont fun rec => pipes E rec first ps fe s := by
  match ps with
  | [] => exact .const _
  | .mk cs neg cond :: rest =>
    simp only [pipes]
    exact .ite (.call _ _) (.andThen (.call _ _) fun s => .ite (.const _) (.call _ _))

theorem cont_commands (cs : List Command) (self : Bool) (s : St σ) : Cont fun rec => commands E rec cs self s := by
  match cs with
  | [] => exact .const _
  | [c] =>
    simp only [commands]
    exact .andThen (.call _ _) fun s => .const _
  | x :: y :: rest =>
    intro R L h hn
    simp only [commands] at hn ⊢
    cases hall : allExits ((x :: y :: rest).zipIdx.map fun ci =>
        L (.one ci.1 true) (becomeChild (E.enterPipe (x :: y :: rest) ci.2 s.sh) s)) with
    | none => simp only [hall] at hn; exact absurd rfl hn
    | some rs =>
      obtain ⟨n, hn2⟩ := reaches_allExits h _ _ _ _ hall
      exact ⟨n, fun m hm => by simp only [hn2 m hm]⟩

theorem cont_one (c : Command) (fe : Bool) (s : St σ) : Cont fun rec => one E rec c fe s := by
  have key : ∀ c, Cont fun rec : Task ι → St σ → Res σ ω =>
      match E.redirect (redirsOf c) s.status s.sh with
      | (sh, saved, true) =>
        (rec (.nonsimple c (fe && E.nothingSaved saved)) { s with sh := sh }).andThen fun s =>
        fin E fe { s with sh := E.undo saved s.sh }
      | (sh, saved, false) =>
        (applyErr E true { s with status := Exit_REDIRERR, sh := E.undo saved sh }).andThen (fin E fe) := by
    intro c
    rcases E.redirect (redirsOf c) s.status s.sh with ⟨sh, saved, ok⟩
    cases ok
    · exact .const _
    · exact .andThen (.call _ _) fun s => .const _
  cases c with
  | simple r a w => exact .andThen (.call _ _) fun s => .const _
  | group r l => exact key _
  | subshell r l => exact key _
  | ifs r l => exact key _
  | fors r n w l => exact key _
  | whiles r w c l => exact key _
  | cases r w i => exact key _
  | bracket r e => exact key _
  | funcdef r n c => exact key _

theorem cont_simple (r : List Redir) (a : List Assign) (w : List Word) (fe : Bool) (s : St σ) :
    Cont fun rec => simple E rec r a w fe s := by
  unfold simple
  rcases E.expandLine w s.status (E.resetSubst s.sh) with ⟨sh, o⟩
  match o with
  | none => exact .const _
  | some [] => exact .const _
  | some (name :: args) =>
    simp only [withWords]
    rcases E.redirect r s.status sh with ⟨sh1, saved, ok⟩
    cases ok
    · exact .const _
    · simp only
      generalize (!a.isEmpty && !(E.lookup name sh1).isSpecial) = temp
      rcases E.assign a temp true s.status (if temp then E.openTemp sh1 else sh1) with ⟨sh2, ok⟩
      cases ok
      · exact .const _
      · simp only
        change Cont fun rec : Task ι → St σ → Res σ ω =>
          match resolve E name (name :: args) (E.lookup name sh1) { s with sh := sh2 } with
          | (s, none) => fin E fe (cleanup E saved temp s)
          | (s, some k) =>
            (rec (.invoke k (name :: args) (fe && E.nothingSaved saved)) s).andThen fun s =>
            fin E fe (afterInvoke E saved temp s)
        rcases resolve E name (name :: args) (E.lookup name sh1) { s with sh := sh2 } with ⟨t, k⟩
        cases k with
        | none => exact .const _
        | some k => exact .andThen (.call _ _) fun s => .const _

theorem cont_callBuiltin (argv : List Str) (s : St σ) : Cont fun rec => callBuiltin E rec argv s := by
  unfold callBuiltin
  rcases E.builtin argv s.status s.sh with ⟨sh, act⟩
  cases act with
  | done st => exact .const _
  | brk n => exact .const _
  | cont n => exact .const _
  | ret st => exact .const _
  | exit st => exact .const _
  | eval code => exact .call _ _
  | dot code args => simp only [dotBuiltin]; exact .andThen (.call _ _) fun s => .const _
  | run k argv => exact .call _ _

theorem cont_invoke (k : Kind) (argv : List Str) (fe : Bool) (s : St σ) : Cont fun rec => invoke E rec k argv fe s := by
  cases k with
  | none => exact .const _
  | external path => exact .const _
  | special => exact .andThen (cont_callBuiltin argv s) fun s => .const _
  | builtin => exact .andThen (cont_callBuiltin argv s) fun s => .const _
  | function body => exact .andThen (.call _ _) fun s => .const _

theorem cont_subshell (l : List AndOr) (s : St σ) : Cont fun rec => subshell E rec l s := by
  intro R L h hn
  unfold subshell at hn ⊢
  have hne : L (.lists l true) (becomeChild (E.enter s.sh) s) ≠ .none := by
    intro e; simp only [e] at hn; exact hn rfl
  obtain ⟨n, hn2⟩ := h _ _ hne
  exact ⟨n, fun m hm => by simp only [hn2 m hm]⟩

theorem cont_nonsimple (c : Command) (fe : Bool) (s : St σ) : Cont fun rec => nonsimple E rec c fe s := by
  cases c with
  | simple r a w => exact .const _
  | group r l => exact .call _ _
  | subshell r l => exact .ite (.call _ _) (cont_subshell l s)
  | ifs r l => exact .call _ _
  | fors r n w l =>
    simp only [nonsimple, execFor]
    cases w with
    | none => exact .andThen (.call _ _) fun s => .const _
    | some ws =>
      simp only
      rcases E.expandLine ws s.status s.sh with ⟨sh, o⟩
      cases o with
      | none => exact .const _
      | some ws => exact .andThen (.call _ _) fun s => .const _
  | whiles r w c l => exact .andThen (.call _ _) fun s => .const _
  | cases r w i =>
    simp only [nonsimple, execCase]
    rcases E.expandOne w s.status s.sh with ⟨sh, o⟩
    cases o with
    | none => exact .const _
    | some v =>
      simp only
      rcases findItem E v s.status i sh with ⟨sh', f⟩
      match f with
      | .fail => exact .const _
      | .nothing => exact .const _
      | .body [] => exact .const _
      | .body (a :: l) => exact .andThen (.call _ _) fun s => .const _
  | bracket r e => exact .const _
  | funcdef r n c => exact .const _

theorem cont_ifs (cl : List IfClause) (fe : Bool) (s : St σ) : Cont fun rec => ifs E rec cl fe s := by
  match cl with
  | [] => exact .const _
  | .els body :: _ => exact .ite (.const _) (.call _ _)
  | .cond c body :: rest => exact .ite (.const _) (.andThen (.call _ _) fun s => .ite (.call _ _) (.call _ _))

theorem cont_cond (l : List AndOr) (s : St σ) : Cont (ω := ω) (ι := ι) fun rec => cond rec l s := by
  cases l with
  | nil => exact .const _
  | cons a l => exact .andThen (.call _ _) fun s => .const _

theorem cont_checkLoop {s : St σ} {f g : (Task ι → St σ → Res σ ω) → St σ → Res σ ω} (hf : ∀ s, Cont fun rec => f rec s)
    (hg : ∀ s, Cont fun rec => g rec s) : Cont fun rec => checkLoop s (f rec) (g rec) := by
  unfold checkLoop
  exact .ite (.const _) (.ite (hf _) (.ite (.const _) (hg _)))

theorem cont_forLoop (name : Str) (ws : List Str) (body : List AndOr) (fe : Bool) (s : St σ) :
    Cont fun rec => forLoop E rec name ws body fe s := by
  cases ws with
  | nil => exact .const _
  | cons w ws =>
    simp only [forLoop]
    rcases E.setVar name w s.sh with ⟨sh, ok⟩
    cases ok
    · exact .const _
    · exact .andThen (.call _ _) fun s => cont_checkLoop (fun s => .call _ _) (fun s => .call _ _)

theorem cont_whileLoop (w : Bool) (c body : List AndOr) (st : Nat) (s : St σ) :
    Cont (ω := ω) (ι := ι) fun rec => whileLoop rec w c body st s := by
  unfold whileLoop
  refine .andThen (.call _ _) fun s => cont_checkLoop (fun s => .call _ _) (fun s => .ite (.const _) ?_)
  cases body with
  | nil => exact .call _ _
  | cons a l => exact .andThen (.call _ _) fun s => cont_checkLoop (fun s => .call _ _) (fun s => .call _ _)

theorem cont_parse (inp : ι) (executed fe : Bool) (s : St σ) : Cont fun rec => parse E rec inp executed fe s := by
  unfold parse
  refine .ite (.const _) ?_
  rcases E.parse inp s.sh with ⟨sh, p⟩
  match p with
  | .ok [] rest atEof => exact .call _ _
  | .ok (a :: l) rest atEof => exact .ite (.andThen (.call _ _) fun s => .call _ _) (.call _ _)
  | .eof => exact .const _
  | .syntaxError => exact .const _
  | .inputError => exact .const _

theorem cont_step (t : Task ι) (s : St σ) : Cont fun rec => step E rec t s := by
  cases t with
  | lists l fe => exact cont_lists l fe s
  | pipes first ps fe => exact cont_pipes first ps fe s
  | commands cs self => exact cont_commands cs self s
  | one c fe => exact cont_one c fe s
  | simple r a w fe => exact cont_simple r a w fe s
  | invoke k argv fe => exact cont_invoke k argv fe s
  | func body args fe => exact .andThen (.call _ _) fun s => .const _
  | nonsimple c fe => exact cont_nonsimple c fe s
  | ifs cl fe => exact cont_ifs cl fe s
  | cond l => exact cont_cond l s
  | forLoop name ws body fe => exact cont_forLoop name ws body fe s
  | whileLoop w c body st => exact cont_whileLoop w c body st s
  | parse inp executed fe => exact cont_parse inp executed fe s

/-- A larger bound does not change a result. -/
theorem run_mono {n : Nat} {t : Task ι} {s : St σ} (h : run E n t s ≠ .none) {m : Nat} (hm : n ≤ m) :
    run E m t s = run E n t s := by
  have one : ∀ n t (s : St σ), run E n t s ≠ .none → run E (n + 1) t s = run E n t s := by
    intro n
    induction n with
    | zero => intro t s h; exact absurd rfl h
    | succ n ih =>
      intro t s h
      rw [run_succ] at h
      obtain ⟨k, hk⟩ := cont_step t s (fun _ => run E (n + 1)) (run E n) (fun t s h => ⟨0, fun _ _ => ih t s h⟩) h
      rw [run_succ, run_succ]
      exact hk k (Nat.le_refl _)
  induction hm with
  | refl => rfl
  | step hm ih => rw [one _ _ _ (by rw [ih]; exact h), ih]

open Classical in
/-- The result with a bound that is large enough. -/
noncomputable def exec (E : Shell σ ω ρ ι) (t : Task ι) (s : St σ) : Res σ ω :=
  if h : ∃ n, run E n t s ≠ .none then run E (choose h) t s else .none

theorem exec_eq {t : Task ι} {s : St σ} {r : Res σ ω} (hr : r ≠ .none) : exec E t s = r ↔ ∃ n, run E n t s = r := by
  unfold exec
  constructor
  · intro h
    split at h
    · exact ⟨_, h⟩
    · exact absurd h.symm hr
  · rintro ⟨n, h⟩
    have hex : ∃ n, run E n t s ≠ .none := ⟨n, by rw [h]; exact hr⟩
    rw [dif_pos hex]
    have h2 := Classical.choose_spec hex
    have e1 := run_mono h2 (Nat.le_max_left (Classical.choose hex) n)
    have e2 := run_mono (by rw [h]; exact hr) (Nat.le_max_right (Classical.choose hex) n)
    rw [← e1, e2, h]

theorem reaches_exec : Reaches (run E) (exec E) := by
  intro t s h
  obtain ⟨n, hn⟩ := (exec_eq h).1 rfl
  exact ⟨n, fun m hm => by rw [run_mono (by rw [hn]; exact h) hm, hn]⟩

/-- The functions call each other without a bound. -/
theorem exec_step {t : Task ι} {s : St σ} (h : step E (exec E) t s ≠ .none) : exec E t s = step E (exec E) t s := by
  obtain ⟨n, hn⟩ := cont_step t s _ _ reaches_exec h
  rw [exec_eq h]
  exact ⟨n + 1, by rw [run_succ]; exact hn n (Nat.le_refl _)⟩

theorem exec_step' {t : Task ι} {s : St σ} : exec E t s = step E (exec E) t s := by
  by_cases h : step E (exec E) t s = .none
  · rw [h]
    apply Classical.byContradiction
    intro hne
    obtain ⟨n, hn⟩ := (exec_eq hne).1 rfl
    cases n with
    | zero => exact hne hn.symm
    | succ n =>
      rw [run_succ] at hn
      obtain ⟨k, hk⟩ := cont_step (E := E) t s (fun _ => exec E) (run E n)
        (fun t s h => ⟨0, fun _ _ => (exec_eq h).2 ⟨n, rfl⟩⟩) (by simp only [hn]; exact hne)
      have := hk k (Nat.le_refl _)
      simp only [h, hn] at this
      exact hne this.symm
  · exact exec_step h

end Yash.Exec
