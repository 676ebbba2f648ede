import Verif.Exec.Limit
/-!
# The functions do all that the semantics says
-/
set_option autoImplicit false

namespace Yash.Exec
open Yash.Syntax Spec

variable {σ ω ρ ι : Type} {E : Shell σ ω ρ ι}

/-! ## Equations -/

theorem exec_lists (l : List AndOr) (fe : Bool) (s : St σ) : exec E (.lists l fe) s = lists E (exec E) l fe s := exec_step'
theorem exec_pipes (b : Bool) (ps : List Pipeline) (fe : Bool) (s : St σ) :
    exec E (.pipes b ps fe) s = pipes E (exec E) b ps fe s := exec_step'
theorem exec_commands (cs : List Command) (fe : Bool) (s : St σ) :
    exec E (.commands cs fe) s = commands E (exec E) cs fe s := exec_step'
theorem exec_one (c : Command) (fe : Bool) (s : St σ) : exec E (.one c fe) s = one E (exec E) c fe s := exec_step'
theorem exec_simple (r : List Redir) (a : List Assign) (w : List Word) (fe : Bool) (s : St σ) :
    exec E (.simple r a w fe) s = simple E (exec E) r a w fe s := exec_step'
theorem exec_invoke (k : Kind) (argv : List Str) (fe : Bool) (s : St σ) :
    exec E (.invoke k argv fe) s = invoke E (exec E) k argv fe s := exec_step'
theorem exec_func (c : Command) (args : List Str) (fe : Bool) (s : St σ) :
    exec E (.func c args fe) s = funcBody E (exec E) c args fe s := exec_step'
theorem exec_nonsimple (c : Command) (fe : Bool) (s : St σ) :
    exec E (.nonsimple c fe) s = nonsimple E (exec E) c fe s := exec_step'
theorem exec_ifs (cl : List IfClause) (fe : Bool) (s : St σ) : exec E (.ifs cl fe) s = ifs E (exec E) cl fe s := exec_step'
theorem exec_cond (l : List AndOr) (s : St σ) : exec E (.cond l) s = cond (exec E) l s := exec_step'
theorem exec_forLoop (n : Str) (ws : List Str) (l : List AndOr) (fe : Bool) (s : St σ) :
    exec E (.forLoop n ws l fe) s = forLoop E (exec E) n ws l fe s := exec_step'
theorem exec_whileLoop (w : Bool) (c l : List AndOr) (st : Nat) (s : St σ) :
    exec E (.whileLoop w c l st) s = whileLoop (exec E) w c l st s := exec_step'
theorem exec_parse (inp : ι) (x fe : Bool) (s : St σ) : exec E (.parse inp x fe) s = parse E (exec E) inp x fe s := exec_step'

/-! ## Results and outcomes -/

theorem pend_unique {t : St σ} {sig sig' : Sig} (h : Pend t sig) (h' : Pend t sig') : sig = sig' := by
  cases sig <;> cases sig' <;> simp only [Pend] at h h' <;> simp_all <;> omega

theorem Rel.of_exit {s : St σ} {r : Res σ ω} {st : Nat} {w : ω} (h : Rel E false s r (.exit st w)) : r = .exit st w := by
  rcases h.cases_false with ⟨st', w', hr, e⟩ | ⟨t, sig, hr, e, _⟩
  · cases e; exact hr
  · cases e

theorem Rel.of_done {s : St σ} {r : Res σ ω} {sig : Sig} {st : Nat} {sh : σ} (h : Rel E false s r (.done sig st sh)) :
    ∃ t, r = .ok t ∧ Ends s t sig st sh := by
  rcases h.cases_false with ⟨st', w', hr, e⟩ | ⟨t, sig', hr, e, h1, h2⟩
  · cases e
  · injection e with e1 e2 e3
    subst e1
    exact ⟨t, hr, h1, h2, e2.symm, e3.symm⟩

/-- The result of a loop stands for this outcome. -/
def LoopRel (E : Shell σ ω ρ ι) (fe : Bool) (s : St σ) (r : Res σ ω) (o : Out σ ω) : Prop :=
  match r with
  | .none => False
  | .exit st w => if fe then o.finish E = (st % 256, w) else o = .exit st w
  | .ok t => ∃ sig, o = .done sig t.status t.sh ∧ 0 < t.loopnest ∧ Same (outside s) (outside t) ∧ Pend (outside t) sig

/-- The functions do this. -/
def Does (E : Shell σ ω ρ ι) (c : Ctx) (x : Node ι) (st : Nat) (s : σ) (o : Out σ ω) : Prop :=
  match x with
  | .list l => ∀ S fe, Start S → ctxOf S = c → S.status = st → S.sh = s → Rel E fe S (exec E (.lists l fe) S) o
  | .item (.mk ps true) => ∀ S fe, Start S → ctxOf S = c → S.status = st → S.sh = s →
    Rel E fe S ((execAsync E ps S).andThen (fin E fe)) o
  | .item (.mk ps false) => ∀ S fe, Start S → ctxOf S = c → S.status = st → S.sh = s → Rel E fe S (exec E (.pipes true ps fe) S) o
  | .chain ps => ∀ S fe, Start S → ctxOf S = c → S.status = st → S.sh = s → Rel E fe S (exec E (.pipes true ps fe) S) o
  | .behind ps => ∀ S fe, Start S → ctxOf S = c → S.status = st → S.sh = s → Rel E fe S (exec E (.pipes false ps fe) S) o
  | .pipeline p => ∀ S fe, Start S → ctxOf S = c → S.status = st → S.sh = s → Rel E fe S (exec E (.pipes true [p] fe) S) o
  | .cmds cs => ∀ S fe, Start S → ctxOf S = c → S.status = st → S.sh = s → Rel E fe S (exec E (.commands cs fe) S) o
  | .command x => ∀ S fe, Start S → ctxOf S = c → S.status = st → S.sh = s → Rel E fe S (exec E (.one x fe) S) o
  | .body x => ∀ S fe, Start S → ctxOf S = c → S.status = st → S.sh = s → Rel E fe S (exec E (.nonsimple x fe) S) o
  | .ifs cl => ∀ S fe, Start S → ctxOf S = c → S.status = st → S.sh = s → Rel E fe S (exec E (.ifs cl fe) S) o
  | .words n ws l => ∀ S fe, 0 < S.loopnest → Start S → ctxOf (outside S) = c → S.status = st → S.sh = s →
    LoopRel E fe S (exec E (.forLoop n ws l fe) S) o
  | .loop w i l last => ∀ S, 0 < S.loopnest → Start S → ctxOf (outside S) = c → S.status = st → S.sh = s →
    LoopRel E false S (exec E (.whileLoop w i l last) S) o
  | .run k argv => ∀ S fe, Start S → ctxOf S = c → S.status = st → S.sh = s → Rel E fe S (exec E (.invoke k argv fe) S) o
  | .call x args => ∀ S fe, Start S → ctxOf S = c → S.status = st → S.sh = s → Rel E fe S (exec E (.func x args fe) S) o
  | .script inp b => ∀ S fe, Start S → ctxOf S = c → S.status = st → S.sh = s → Rel E fe S (exec E (.parse inp b fe) S) o

/-! ## Lists -/

theorem does_list_go {S : St σ} {a : AndOr} {l : List AndOr} {fe : Bool} {st' : Nat} {s' : σ} {o : Out σ ω} (hs : Start S)
    (h1 : Does E (ctxOf S) (.item a) S.status S.sh (.done .normal st' s'))
    (h2 : Does E (ctxOf S) (.list l) st' s' o) (h3 : l = [] → o = .done .normal st' s') :
    Rel E fe S (exec E (.lists (a :: l) fe) S) o := by
  obtain ⟨ps, async⟩ := a
  rw [exec_lists]
  simp only [lists, hs.needBreak, Bool.false_eq_true, if_false]
  have go : ∀ r, Rel E false S r (.done .normal st' s') →
      Rel E fe S (r.andThen fun s => exec E (.lists l fe) s) o := by
    intro r hr
    obtain ⟨t, rfl, ht⟩ := hr.of_done
    exact (h2 t fe ht.pend ht.same.ctx ht.status ht.state).same ht.same
  cases async
  · simp only [Bool.not_false, if_true]
    cases hfe : (fe && l.isEmpty)
    · exact go _ (h1 S false hs rfl rfl rfl)
    · simp only [Bool.and_eq_true, List.isEmpty_iff] at hfe
      obtain ⟨rfl, rfl⟩ := hfe
      obtain ⟨st, w, hr, hf⟩ := (h1 S true hs rfl rfl rfl).cases_true
      rw [hr, h3 rfl]
      simpa [Rel, Res.andThen] using hf
  · simp only [Bool.not_true, Bool.false_eq_true, if_false]
    refine go _ ?_
    have := h1 S false hs rfl rfl rfl
    cases he : execAsync E ps S with
    | none => rw [he] at this; exact this
    | exit st w => rw [he] at this; exact this
    | ok t => rw [he] at this; exact this

theorem does_list_stop {S : St σ} {a : AndOr} {l : List AndOr} {fe : Bool} {o : Out σ ω} (hs : Start S)
    (h1 : Does E (ctxOf S) (.item a) S.status S.sh o) (h2 : ¬ o.goesOn) :
    Rel E fe S (exec E (.lists (a :: l) fe) S) o := by
  obtain ⟨ps, async⟩ := a
  rw [exec_lists]
  simp only [lists, hs.needBreak, Bool.false_eq_true, if_false]
  have go : ∀ r, Rel E false S r o → Rel E fe S (r.andThen fun s => exec E (.lists l fe) s) o := by
    intro r hr
    rcases hr.cases_false with ⟨st, w, rfl, rfl⟩ | ⟨t, sig, rfl, rfl, h3, h4⟩
    · exact Rel.exit _ _
    · have hb := (Same.signal h4).2 (fun e => h2 (goesOn_done.2 e))
      simp only [Res.andThen]
      rw [exec_lists, sound_listsStop l fe t hb]
      exact rel_fin h3 h4
  cases async
  · simp only [Bool.not_false, if_true]
    cases hfe : (fe && l.isEmpty)
    · exact go _ (h1 S false hs rfl rfl rfl)
    · simp only [Bool.and_eq_true, List.isEmpty_iff] at hfe
      obtain ⟨rfl, rfl⟩ := hfe
      obtain ⟨st, w, hr, hf⟩ := (h1 S true hs rfl rfl rfl).cases_true
      rw [hr]
      simpa [Rel, Res.andThen] using hf
  · simp only [Bool.not_true, Bool.false_eq_true, if_false]
    refine go _ ?_
    have := h1 S false hs rfl rfl rfl
    cases he : execAsync E ps S with
    | none => rw [he] at this; exact this
    | exit st w => rw [he] at this; exact this
    | ok t => rw [he] at this; exact this

theorem execAsync_other {ps : List Pipeline} {S : St σ} {st' : Nat} {s' : σ} (he : E.async ps S.status S.sh = (s', st'))
    (hp : ∀ cs cond, ps ≠ [.mk cs false cond]) : (execAsync E ps S : Res σ ω) = .ok { S with status := st', sh := s' } := by
  unfold execAsync
  rw [he]
  simp only

theorem execAsync_one {cs : List Command} {cond : Bool} {S : St σ} {st' : Nat} {s' : σ}
    (he : E.async [.mk cs false cond] S.status S.sh = (s', st')) :
    (execAsync E [.mk cs false cond] S : Res σ ω) = applyErr E (errConditionFor cs) { S with status := st', sh := s' } := by
  unfold execAsync
  rw [he]

/-! ## Pipelines -/

theorem exec_pipes_one (cs : List Command) (neg cond fe : Bool) (S : St σ) :
    exec E (.pipes true [.mk cs neg cond] fe) S =
      (exec E (.commands cs (fe && !neg)) { S with see := S.see || neg, ser := S.ser || neg }).andThen fun s1 =>
        if needBreak (unsuppress S s1) then fin E fe (unsuppress S s1) else fin E fe (negate neg (unsuppress S s1)) := by
  rw [exec_pipes]
  have : pipes E (exec E) true [.mk cs neg cond] fe S =
      (exec E (.commands cs (fe && true && !neg)) { S with see := S.see || (neg || false), ser := S.ser || (neg || false) }).andThen
        fun s1 => if needBreak (unsuppress S s1) then fin E fe (unsuppress S s1)
          else exec E (.pipes false [] fe) (negate neg (unsuppress S s1)) := rfl
  rw [this, Bool.and_true, Bool.or_false]
  congr 1
  funext s1
  rw [exec_pipes]
  rfl

/-- A pipeline in an and-or list before the last one. -/
theorem exec_pipes_more (cs : List Command) (neg cond fe : Bool) (ps : List Pipeline) (hps : ps ≠ []) (S : St σ) :
    exec E (.pipes true (.mk cs neg cond :: ps) fe) S =
      (exec E (.commands cs false) { S with see := true, ser := true }).andThen fun s1 =>
        if needBreak (unsuppress S s1) then fin E fe (unsuppress S s1)
        else exec E (.pipes false ps fe) (negate neg (unsuppress S s1)) := by
  rw [exec_pipes]
  obtain ⟨p, ps, rfl⟩ := List.exists_cons_of_ne_nil hps
  have : pipes E (exec E) true (.mk cs neg cond :: p :: ps) fe S =
      (exec E (.commands cs (fe && false && !neg)) { S with see := S.see || (neg || true), ser := S.ser || (neg || true) }).andThen
        fun s1 => if needBreak (unsuppress S s1) then fin E fe (unsuppress S s1)
          else exec E (.pipes false (p :: ps) fe) (negate neg (unsuppress S s1)) := rfl
  rw [this, Bool.and_false, Bool.or_true, Bool.or_true, Bool.or_true]
  rfl

/-- What is known of the commands of a pipeline from what is known of the pipeline. -/
theorem pipeline_inv {p : Pipeline} {S : St σ} {o : Out σ ω} (hs : Start S)
    (h : Does E (ctxOf S).examined (.pipeline p) S.status S.sh o) :
    ∃ cs neg cond, p = .mk cs neg cond ∧
      ((∃ st w, exec E (.commands cs false) { S with see := true, ser := true } = .exit st w ∧ o = .exit st w) ∨
        ∃ s1, exec E (.commands cs false) { S with see := true, ser := true } = .ok s1 ∧
          ((needBreak (unsuppress S s1) = true ∧ ∃ sig, sig ≠ .normal ∧ o = .done sig s1.status s1.sh ∧
              Ends S (unsuppress S s1) sig s1.status s1.sh) ∨
            (needBreak (unsuppress S s1) = false ∧ ∃ st' s', o = .done .normal st' s' ∧
              Ends S (negate neg (unsuppress S s1)) .normal st' s'))) := by
  obtain ⟨cs, neg, cond⟩ := p
  refine ⟨cs, neg, cond, rfl, ?_⟩
  have h := h { S with see := true, ser := true } false hs rfl rfl rfl
  rw [exec_pipes_one] at h
  have e : ({ ({ S with see := true, ser := true } : St σ) with see := true || neg, ser := true || neg } : St σ) =
      { S with see := true, ser := true } := rfl
  rw [Bool.false_and, e] at h
  generalize hr : exec E (.commands cs false) { S with see := true, ser := true } = r at h
  cases r with
  | none => exact absurd h (by simp [Rel, Res.andThen])
  | exit st w =>
    simp only [Res.andThen, Rel] at h
    exact .inl ⟨st, w, rfl, by simpa using h⟩
  | ok s1 =>
    refine .inr ⟨s1, rfl, ?_⟩
    simp only [Res.andThen] at h
    have hb : needBreak (unsuppress { S with see := true, ser := true } s1) = needBreak (unsuppress S s1) := rfl
    rw [hb] at h
    cases hnb : needBreak (unsuppress S s1)
    · refine .inr ⟨rfl, ?_⟩
      rw [hnb] at h
      simp only [Bool.false_eq_true, if_false] at h
      rcases h.cases_false with ⟨st, w, e1, e2⟩ | ⟨t, sig, e1, e2, h1, h2⟩
      · simp [fin] at e1
      · simp only [fin, Bool.false_eq_true, if_false, Res.ok.injEq] at e1
        subst e1
        have hsig : sig = .normal := by
          apply Classical.byContradiction
          intro hne
          have := (Same.signal h2).2 hne
          have e3 : needBreak (negate neg (unsuppress { S with see := true, ser := true } s1)) = needBreak (unsuppress S s1) := by
            cases neg <;> rfl
          rw [e3, hnb] at this
          exact absurd this (by simp)
        subst hsig
        refine ⟨_, _, e2, ?_, ?_, ?_, ?_⟩
        · cases neg <;> exact ⟨h1.1, h1.2, rfl, rfl⟩
        · cases neg <;> exact h2
        · cases neg <;> rfl
        · cases neg <;> rfl
    · refine .inl ⟨rfl, ?_⟩
      rw [hnb] at h
      simp only [if_true] at h
      rcases h.cases_false with ⟨st, w, e1, e2⟩ | ⟨t, sig, e1, e2, h1, h2⟩
      · simp [fin] at e1
      · simp only [fin, Bool.false_eq_true, if_false, Res.ok.injEq] at e1
        subst e1
        refine ⟨sig, ?_, e2, ⟨h1.1, h1.2, rfl, rfl⟩, ?_, rfl, rfl⟩
        · rintro rfl
          have := Start.needBreak h2
          rw [hb, hnb] at this
          exact absurd this (by simp)
        · cases sig <;> exact h2

theorem does_chain_cons {p : Pipeline} {ps : List Pipeline} {S : St σ} {st' : Nat} {s' : σ} {o : Out σ ω} {fe : Bool}
    (hs : Start S) (hps : ps ≠ []) (h1 : Does E (ctxOf S).examined (.pipeline p) S.status S.sh (.done .normal st' s'))
    (h2 : Does E (ctxOf S) (.behind ps) st' s' o) : Rel E fe S (exec E (.pipes true (p :: ps) fe) S) o := by
  obtain ⟨cs, neg, cond, rfl, h⟩ := pipeline_inv hs h1
  rw [exec_pipes_more _ _ _ _ _ hps]
  rcases h with ⟨_, _, _, e⟩ | ⟨s1, hr, ⟨_, sig, hsig, e, _⟩ | ⟨hb, st2, s2, e, he⟩⟩
  · cases e
  · cases e; exact absurd rfl hsig
  · cases e
    rw [hr]
    simp only [Res.andThen, hb, Bool.false_eq_true, if_false]
    exact (h2 _ fe he.pend he.same.ctx he.status he.state).same he.same

theorem does_chain_stop {p : Pipeline} {ps : List Pipeline} {S : St σ} {o : Out σ ω} {fe : Bool}
    (hs : Start S) (hps : ps ≠ []) (h1 : Does E (ctxOf S).examined (.pipeline p) S.status S.sh o) (h2 : ¬ o.goesOn) :
    Rel E fe S (exec E (.pipes true (p :: ps) fe) S) o := by
  obtain ⟨cs, neg, cond, rfl, h⟩ := pipeline_inv hs h1
  rw [exec_pipes_more _ _ _ _ _ hps]
  rcases h with ⟨_, _, hr, rfl⟩ | ⟨s1, hr, ⟨hb, sig, hsig, rfl, he⟩ | ⟨hb, st2, s2, rfl, he⟩⟩
  · rw [hr]; exact Rel.exit _ _
  · rw [hr]
    simp only [Res.andThen, hb, if_true]
    exact rel_fin he.same he.pend
  · exact absurd (goesOn_done.2 rfl) h2

/-- What is behind `&&` or `||` and is to be executed. -/
theorem exec_behind_run (cs : List Command) (neg cond fe : Bool) (ps : List Pipeline) (S : St σ)
    (h : (cond == (S.status != Exit_SUCCESS)) = false) :
    exec E (.pipes false (.mk cs neg cond :: ps) fe) S = exec E (.pipes true (.mk cs neg cond :: ps) fe) S := by
  rw [exec_pipes, exec_pipes]
  simp only [pipes, Bool.not_false, Bool.true_and, h, Bool.false_eq_true, if_false, Bool.not_true, Bool.false_and]

theorem exec_behind_skip (cs : List Command) (neg cond fe : Bool) (ps : List Pipeline) (S : St σ)
    (h : (cond == (S.status != Exit_SUCCESS)) = true) :
    exec E (.pipes false (.mk cs neg cond :: ps) fe) S = exec E (.pipes false ps fe) S := by
  rw [exec_pipes]
  simp only [pipes, Bool.not_false, Bool.true_and, h, if_true]

theorem does_pipeline {cs : List Command} {cond : Bool} {S : St σ} {o : Out σ ω} {fe : Bool} (hs : Start S)
    (h : Does E (ctxOf S) (.cmds cs) S.status S.sh o) : Rel E fe S (exec E (.pipes true [.mk cs false cond] fe) S) o := by
  rw [exec_pipes_one]
  have e : ({ S with see := S.see || false, ser := S.ser || false } : St σ) = S := by
    rw [Bool.or_false, Bool.or_false]
  rw [e, Bool.not_false, Bool.and_true]
  have h := h S fe hs rfl rfl rfl
  have e2 : ∀ s1 : St σ, (if needBreak (unsuppress S s1) then fin E fe (unsuppress S s1)
      else fin E fe (negate false (unsuppress S s1)) : Res σ ω) = fin E fe (unsuppress S s1) := by
    intro s1; split <;> rfl
  simp only [e2]
  cases fe
  · rcases h.cases_false with ⟨st, w, hr, rfl⟩ | ⟨t, sig, hr, rfl, h1, h2⟩
    · rw [hr]; exact Rel.exit _ _
    · rw [hr]
      refine ⟨rfl, ⟨h1.1, h1.2, rfl, rfl⟩, ?_, rfl, rfl⟩
      cases sig <;> exact h2
  · obtain ⟨st, w, hr, hf⟩ := h.cases_true
    rw [hr]; simpa [Rel, Res.andThen] using hf

/-- The outcome of a negated pipeline. -/
def negOut : Out σ ω → Out σ ω
  | .done .normal st s => .done .normal (if st = 0 then 1 else 0) s
  | o => o

theorem does_negated {cs : List Command} {cond : Bool} {S : St σ} {o : Out σ ω} {fe : Bool} (hs : Start S)
    (h : Does E (ctxOf S).examined (.cmds cs) S.status S.sh o) :
    Rel E fe S (exec E (.pipes true [.mk cs true cond] fe) S)
      (negOut o) := by
  rw [exec_pipes_one]
  have e : ({ S with see := S.see || true, ser := S.ser || true } : St σ) = { S with see := true, ser := true } := by
    rw [Bool.or_true, Bool.or_true]
  rw [e, Bool.not_true, Bool.and_false]
  have h := h { S with see := true, ser := true } false hs rfl rfl rfl
  rcases h.cases_false with ⟨st, w, hr, rfl⟩ | ⟨t, sig, hr, rfl, h1, h2⟩
  · rw [hr]; exact Rel.exit _ _
  · rw [hr]
    simp only [Res.andThen]
    have hp : Pend (unsuppress S t) sig := by cases sig <;> exact h2
    have hsm : Same S (unsuppress S t) := ⟨h1.1, h1.2, rfl, rfl⟩
    by_cases hsig : sig = .normal
    · subst hsig
      rw [if_neg (by rw [Start.needBreak hp]; simp)]
      simp only [negOut]
      have : (if t.status = 0 then 1 else 0) = (negate true (unsuppress S t)).status := by
        simp only [negate, unsuppress, if_true, Exit_SUCCESS, Exit_FAILURE, beq_iff_eq]
      rw [this]
      exact rel_fin (t := negate true (unsuppress S t)) ⟨h1.1, h1.2, rfl, rfl⟩ hp
    · rw [if_pos ((Same.signal hp).2 hsig)]
      have := rel_fin (E := E) (fe := fe) hsm hp
      cases sig with
      | normal => exact absurd rfl hsig
      | brk n => exact this
      | cont n => exact this
      | ret => exact this

theorem does_single {x : Command} {S : St σ} {o : Out σ ω} {fe : Bool} (hs : Start S)
    (h : Does E (ctxOf S) (.command x) S.status S.sh o) :
    Rel E fe S (exec E (.commands [x] fe) S) (if errCondition x then o.checked E (ctxOf S) else o) := by
  rw [exec_commands]
  simp only [commands]
  generalize hsh : (fe && !E.jobControl S.sh && !E.anyTrap S.sh && ([x].length == 1 || !E.pipefail S.sh)) = short
  have hr := h S short hs rfl rfl rfl
  cases short
  · rcases hr.cases_false with ⟨st, w, hre, rfl⟩ | ⟨t, sig, hre, rfl, hsm, hp⟩
    · rw [hre]
      have : (if errCondition x then (Out.exit st w : Out σ ω).checked E (ctxOf S) else .exit st w) = .exit st w := by
        split <;> rfl
      rw [this]; exact Rel.exit _ _
    · rw [hre]
      simp only [Res.andThen]
      cases hb : errCondition x
      · rw [applyErr_false]; exact rel_fin hsm hp
      · exact (applyErr_checked hsm hp).fin
  · simp only [Bool.and_eq_true] at hsh
    obtain ⟨⟨⟨rfl, _⟩, _⟩, _⟩ := hsh
    obtain ⟨st, w, hre, hf⟩ := hr.cases_true
    rw [hre]
    simp only [Rel, if_true, Res.andThen]
    rw [← hf]
    split
    · exact finish_out_checked _ _
    · rfl

theorem pipelineStatus_unique {pf : Bool} {l : List Nat} {x y : Nat} (h1 : PipelineStatus pf l x) (h2 : PipelineStatus pf l y) :
    x = y := by
  have last : ∀ (l m l' m' : List Nat) (x y : Nat), x ≠ 0 → y ≠ 0 → (∀ z ∈ m, z = 0) → (∀ z ∈ m', z = 0) →
      l ++ x :: m = l' ++ y :: m' → x = y := by
    intro l m l' m' x y hx hy hm hm' e
    rcases List.append_eq_append_iff.1 e with ⟨k, rfl, e'⟩ | ⟨k, rfl, e'⟩
    · cases k with
      | nil => simp at e'; exact e'.1
      | cons a k =>
        simp at e'
        exact absurd (hm y (by rw [e'.2]; simp)) hy
    · cases k with
      | nil => simp at e'; exact e'.1.symm
      | cons a k =>
        simp at e'
        exact absurd (hm' x (by rw [e'.2]; simp)) hx
  cases h1 with
  | last l x hp =>
    generalize he : l ++ [x] = m at h2
    cases h2 with
    | last l' x' _ => exact (List.append_inj' he rfl).2 |> fun e => by simpa using e
    | failed _ _ _ hp' => rw [hp] at hp'; cases hp'
    | succeeded _ hp' => rw [hp] at hp'; cases hp'
  | failed l m x hp hx hm =>
    generalize he : l ++ x :: m = k at h2
    cases h2 with
    | last _ _ hp' => rw [hp] at hp'; cases hp'
    | failed l' m' y _ hy hm' => exact last _ _ _ _ _ _ hx hy hm hm' he
    | succeeded _ _ h0 => exact absurd (h0 x (by rw [← he]; simp)) hx
  | succeeded l hp h0 =>
    generalize he : l = k at h2
    cases h2 with
    | last _ _ hp' => rw [hp] at hp'; cases hp'
    | failed l' m' y _ hy hm' => exact absurd (h0 y (by rw [he]; simp)) hy
    | succeeded _ _ _ => rfl

theorem allExits_map {α : Type} (l : List α) (f : α → Res σ ω) (g : α → Nat × ω) (h : ∀ x ∈ l, f x = .exit (g x).1 (g x).2) :
    allExits (l.map f) = some (l.map g) := by
  induction l with
  | nil => rfl
  | cons x l ih =>
    simp only [List.map_cons]
    rw [h x (by simp)]
    simp only [allExits]
    rw [ih fun y hy => h y (by simp [hy])]
    rfl

theorem does_many (hE : Lawful E) {cs : List Command} {S : St σ} {fe : Bool} {os : List (Out σ ω)} {st' : Nat} (hs : Start S)
    (hl : os.length = cs.length) (h2 : 2 ≤ cs.length)
    (h : ∀ i (h : i < cs.length), Does E (ctxOf S).fresh (.command cs[i]) S.status (E.enterPipe cs i S.sh) (os[i]'(hl ▸ h)))
    (hst : PipelineStatus (E.pipefail S.sh) (os.map fun o => (o.finish E).1) st') :
    Rel E fe S (exec E (.commands cs fe) S)
      (checked E (ctxOf S) .normal st' (E.join S.sh (E.pipeWorld S.sh (os.map fun o => (o.finish E).2)))) := by
  rw [exec_commands]
  have hexp : commands E (exec E) cs fe S =
      match allExits (cs.zipIdx.map fun ci => exec E (.one ci.1 true) (becomeChild (E.enterPipe cs ci.2 S.sh) S)) with
      | none => .none
      | some rs =>
        if (fe && !E.jobControl S.sh && !E.anyTrap S.sh && (cs.length == 1 || !E.pipefail S.sh)) then
          .exit ((rs.map (·.1)).getLast?.getD 0) (E.pipeWorld S.sh (rs.map (·.2)))
        else
          (applyErr E true
            { S with status := jobStatus (E.pipefail S.sh) (rs.map (·.1)),
                     sh := E.join S.sh (E.pipeWorld S.sh (rs.map (·.2))) }).andThen (fin E fe) := by
    match cs, h2 with
    | x :: y :: rest, _ => rfl
  rw [hexp]
  have key : ∀ i : Fin cs.length, ∃ r : Nat × ω,
      exec E (.one cs[i] true) (becomeChild (E.enterPipe cs i S.sh) S) = .exit r.1 r.2 ∧
      (os[i.1]'(by rw [hl]; exact i.2)).finish E = (r.1 % 256, r.2) := by
    intro i
    obtain ⟨st, w, hre, hf⟩ := (h i.1 i.2 (becomeChild (E.enterPipe cs i S.sh) S) true (becomeChild_start hs _) rfl rfl rfl).cases_true
    exact ⟨(st, w), hre, hf⟩
  let g : Command × Nat → Nat × ω := fun ci =>
    if hi : ci.2 < cs.length then Classical.choose (key ⟨ci.2, hi⟩) else (0, E.final S.sh)
  have hall := allExits_map cs.zipIdx
    (fun ci => exec E (.one ci.1 true) (becomeChild (E.enterPipe cs ci.2 S.sh) S)) g (by
      rintro ⟨c, i⟩ hm
      obtain ⟨hi1, hi2, hi3⟩ := List.mem_zipIdx hm
      simp only [Nat.zero_add, Nat.sub_zero] at hi2 hi3
      have := (Classical.choose_spec (key ⟨i, hi2⟩)).1
      simp only [g, dif_pos hi2]
      rw [hi3]
      exact this)
  rw [hall]
  simp only
  have hg : ∀ i (hi : i < cs.length), (cs.zipIdx.map g)[i]'(by simpa using hi) = Classical.choose (key ⟨i, hi⟩) := by
    intro i hi
    simp [g, hi]
  have e1 : (os.map fun o => (o.finish E).1) = ((cs.zipIdx.map g).map (·.1)).map (· % 256) := by
    apply List.ext_getElem
    · simp [hl]
    · intro i h1 h2'
      simp only [List.length_map, hl] at h1
      rw [List.getElem_map, List.getElem_map, List.getElem_map, hg i h1]
      exact congrArg Prod.fst (Classical.choose_spec (key ⟨i, h1⟩)).2
  have e2 : (os.map fun o => (o.finish E).2) = (cs.zipIdx.map g).map (·.2) := by
    apply List.ext_getElem
    · simp [hl]
    · intro i h1 h2'
      simp only [List.length_map, hl] at h1
      rw [List.getElem_map, List.getElem_map, hg i h1]
      have := congrArg Prod.snd (Classical.choose_spec (key ⟨i, h1⟩)).2
      exact this
  generalize hrs : cs.zipIdx.map g = rs at e1 e2 ⊢
  have hne : rs.map (·.1) ≠ [] := by
    intro e
    have := congrArg List.length e
    rw [← hrs] at this
    simp at this
    rw [this] at h2; simp at h2
  have hst' : st' = jobStatus (E.pipefail S.sh) (rs.map (·.1)) :=
    pipelineStatus_unique hst (by rw [e1]; exact pipelineStatus_job _ _ hne)
  rw [e2, hst']
  split
  · rename_i hshort
    simp only [Bool.and_eq_true, Bool.not_eq_true', Bool.or_eq_true, beq_iff_eq] at hshort
    obtain ⟨⟨⟨rfl, _⟩, _⟩, hpf⟩ := hshort
    have hpf : E.pipefail S.sh = false := by
      rcases hpf with e | e
      · omega
      · exact e
    simp only [Rel, if_true]
    rw [finish_checked, hE.join, hpf]
    simp [jobStatus]
  · exact (applyErr_checked (sig := .normal) (s := S)
      (t := { S with status := jobStatus (E.pipefail S.sh) (rs.map (·.1)),
                     sh := E.join S.sh (E.pipeWorld S.sh (rs.map (·.2))) }) ⟨rfl, rfl, rfl, rfl⟩ hs).fin

end Yash.Exec
