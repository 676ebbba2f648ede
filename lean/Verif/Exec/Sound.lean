import Verif.Exec.Lemmas
/-!
# The functions do what the semantics says
-/
set_option autoImplicit false

namespace Yash.Exec
open Yash.Syntax Spec

variable {σ ω ρ ι : Type} {E : Shell σ ω ρ ι}

/-- Going through words or rounds leaves the loop itself to be left. -/
def outside (s : St σ) : St σ := { s with loopnest := s.loopnest - 1 }

/-- The result of a loop before it is left. -/
def LoopGood (E : Shell σ ω ρ ι) (fe : Bool) (s : St σ) (x : Node ι) (r : Res σ ω) : Prop :=
  r ≠ .none → ∃ o, Sem E (fun _ => 0) (ctxOf (outside s)) x s.status s.sh o ∧
    match r with
    | .none => False
    | .exit st w => if fe then o.finish E = (st % 256, w) else o = .exit st w
    | .ok t => ∃ sig, o = .done sig t.status t.sh ∧ 0 < t.loopnest ∧ Same (outside s) (outside t) ∧ Pend (outside t) sig

/-- The functions called by a function do what the semantics says. -/
structure Sound (E : Shell σ ω ρ ι) (rec : Task ι → St σ → Res σ ω) : Prop where
  lists : ∀ l fe s, Start s → Good E fe s (.list l) (rec (.lists l fe) s)
  listsStop : ∀ l fe s, needBreak s = true → rec (.lists l fe) s = .none ∨ rec (.lists l fe) s = fin E fe s
  chain : ∀ ps fe s, Start s → Good E fe s (.chain ps) (rec (.pipes true ps fe) s)
  behind : ∀ ps fe s, Start s → Good E fe s (.behind ps) (rec (.pipes false ps fe) s)
  commands : ∀ cs self s, Start s → Good E self s (.cmds cs) (rec (.commands cs self) s)
  one : ∀ c fe s, Start s → Good E fe s (.command c) (rec (.one c fe) s)
  simple : ∀ r a w fe s, Start s → Good E fe s (.command (.simple r a w)) (rec (.simple r a w fe) s)
  invoke : ∀ k argv fe s, Start s → Good E fe s (.run k argv) (rec (.invoke k argv fe) s)
  func : ∀ body args fe s, Start s → Good E fe s (.call body args) (rec (.func body args fe) s)
  nonsimple : ∀ c fe s, Start s → Good E fe s (.body c) (rec (.nonsimple c fe) s)
  ifs : ∀ cl fe s, Start s → Good E fe s (.ifs cl) (rec (.ifs cl fe) s)
  ifsStop : ∀ cl fe s, needBreak s = true → cl ≠ [] → rec (.ifs cl fe) s = .none ∨ rec (.ifs cl fe) s = fin E fe s
  ifsNil : ∀ fe s, rec (.ifs [] fe) s = .none ∨ rec (.ifs [] fe) s = fin E fe { s with status := 0 }
  cond : ∀ l s, Start s → rec (.cond l) s ≠ .none →
    ∃ o, Sem E (fun _ => 0) (ctxOf s).examined (.list l) s.status s.sh o ∧ Rel E false s (rec (.cond l) s) o
  forLoop : ∀ name ws body fe s, Start s → 0 < s.loopnest →
    LoopGood E fe s (.words name ws body) (rec (.forLoop name ws body fe) s)
  forNil : ∀ name body fe s, rec (.forLoop name [] body fe) s = .none ∨ rec (.forLoop name [] body fe) s = .ok s
  whileLoop : ∀ isWhile c body last s, Start s → 0 < s.loopnest →
    LoopGood E false s (.loop isWhile c body last) (rec (.whileLoop isWhile c body last) s)
  parse : ∀ inp executed fe s, Start s → Good E fe s (.script inp executed) (rec (.parse inp executed fe) s)
  parseStop : ∀ inp executed fe s, needBreak s = true →
    rec (.parse inp executed fe) s = .none ∨ rec (.parse inp executed fe) s = fin E fe s

variable {rec : Task ι → St σ → Res σ ω}

/-! ## Lists -/

theorem andThen_ne {r : Res σ ω} {f : St σ → Res σ ω} (h : r.andThen f ≠ .none) : r ≠ .none := by
  intro hr; subst hr; exact h rfl

/-- A first part that is not the last is exact. -/
theorem Rel.cases_false {s : St σ} {r : Res σ ω} {o : Out σ ω} (h : Rel E false s r o) :
    (∃ st w, r = .exit st w ∧ o = .exit st w) ∨
    (∃ t sig, r = .ok t ∧ o = .done sig t.status t.sh ∧ Same s t ∧ Pend t sig) := by
  cases r with
  | none => exact absurd h (by simp [Rel])
  | exit st w => exact .inl ⟨st, w, rfl, by simpa [Rel] using h⟩
  | ok t =>
    cases o with
    | done sig st sh => exact .inr ⟨t, sig, rfl, by rw [h.2.status, h.2.state], h.2.same, h.2.pend⟩
    | exit st w => exact absurd h (by simp [Rel])

theorem goesOn_done {sig : Sig} {st : Nat} {s : σ} : (Out.done sig st s : Out σ ω).goesOn ↔ sig = .normal := by
  cases sig <;> simp [Out.goesOn]

theorem goesOn_exit {st : Nat} {w : ω} : ¬ (Out.exit st w : Out σ ω).goesOn := by simp [Out.goesOn]

/-- An item followed by more. -/
theorem lists_then (h : Sound E rec) {fe : Bool} {s : St σ} {a : AndOr} {l : List AndOr} {r : Res σ ω} {o : Out σ ω}
    (ho : Sem E (fun _ => 0) (ctxOf s) (.item a) s.status s.sh o) (hr : Rel E false s r o) :
    Good E fe s (.list (a :: l)) (r.andThen fun s => rec (.lists l fe) s) := by
  intro hn
  rcases hr.cases_false with ⟨st, w, rfl, rfl⟩ | ⟨t, sig, rfl, rfl, hs, hp⟩
  · exact ⟨_, .list_stop _ _ _ _ _ _ ho goesOn_exit, Rel.exit _ _⟩
  · simp only [Res.andThen] at hn ⊢
    by_cases hsig : sig = .normal
    · subst hsig
      obtain ⟨o', ho', hr'⟩ := h.lists l fe t hp hn
      rw [hs.ctx] at ho'
      exact ⟨o', .list_cons _ _ _ _ _ _ _ _ ho ho', hr'.same hs⟩
    · have hb := (Same.signal hp).2 hsig
      rcases h.listsStop l fe t hb with e | e
      · exact absurd e hn
      · rw [e]
        exact ⟨_, .list_stop _ _ _ _ _ _ ho (fun hh => hsig (goesOn_done.1 hh)), rel_fin hs hp⟩

/-- The last item, in which the process may end. -/
theorem lists_last (h : Sound E rec) {fe : Bool} {s : St σ} {a : AndOr} {r : Res σ ω} {o : Out σ ω}
    (ho : Sem E (fun _ => 0) (ctxOf s) (.item a) s.status s.sh o) (hr : Rel E fe s r o) :
    Good E fe s (.list [a]) (r.andThen fun s => rec (.lists [] fe) s) := by
  cases fe
  · exact lists_then h ho hr
  · intro hn
    have hl : Sem E (fun _ => 0) (ctxOf s) (.list [a]) s.status s.sh o := by
      by_cases hg : o.goesOn
      · cases o with
        | done sig st sh =>
          rw [goesOn_done.1 hg] at ho ⊢
          exact .list_cons _ _ _ _ _ _ _ _ ho (.list_nil _ _ _)
        | exit st w => exact absurd hg goesOn_exit
      · exact .list_stop _ _ _ _ _ _ ho hg
    cases r with
    | none => exact absurd hr (by simp [Rel])
    | exit st w => exact ⟨o, hl, hr⟩
    | ok t => cases o with
      | done sig st sh => exact absurd hr.1 (by simp)
      | exit st w => exact absurd hr (by simp [Rel])

theorem errCondition_basic (c : Command) : errCondition c = true ↔ isBasic c := by
  cases c <;> simp [errCondition, isBasic]

theorem sound_async {s : St σ} (hs : Start s) (ps : List Pipeline) :
    ∃ o, Sem E (fun _ => 0) (ctxOf s) (.item (.mk ps true)) s.status s.sh o ∧ Rel E false s (execAsync E ps s) o := by
  unfold execAsync
  rcases he : E.async ps s.status s.sh with ⟨sh, st⟩
  simp only
  split
  · rename_i cs cond
    have hp : Pend { s with status := st, sh := sh } .normal := hs
    cases hb : errConditionFor cs
    · rw [applyErr_false]
      have : ∃ x, cs = [x] ∧ ¬ isBasic x := by
        cases cs with
        | nil => simp [errConditionFor] at hb
        | cons x t => cases t with
          | nil =>
            refine ⟨x, rfl, fun hx => ?_⟩
            have := (errCondition_basic x).2 hx
            simp [errConditionFor, this] at hb
          | cons y t => simp [errConditionFor] at hb
      obtain ⟨x, rfl, hx⟩ := this
      exact ⟨_, .item_async_one _ _ _ _ _ _ _ he hx, rfl, ⟨rfl, rfl, rfl, rfl⟩, hp, rfl, rfl⟩
    · refine ⟨_, .item_async_checked _ _ _ _ _ _ _ he ?_, applyErr_checked (s := s) ⟨rfl, rfl, rfl, rfl⟩ hp⟩
      intro x hx
      subst hx
      exact (errCondition_basic x).1 (by simpa [errConditionFor] using hb)
  · rename_i hne
    exact ⟨_, .item_async _ _ _ _ _ _ he (fun cs cond e => hne cs cond e), rfl, ⟨rfl, rfl, rfl, rfl⟩, hs, rfl, rfl⟩

theorem sound_lists (h : Sound E rec) (l : List AndOr) (fe : Bool) (s : St σ) (hs : Start s) :
    Good E fe s (.list l) (lists E rec l fe s) := by
  intro hn
  match l with
  | [] => exact ⟨_, .list_nil _ _ _, rel_fin (Same.refl s) hs⟩
  | .mk ps async :: rest =>
    simp only [lists, hs.needBreak, Bool.false_eq_true, if_false] at hn ⊢
    cases async
    · simp only [Bool.not_false, if_true] at hn ⊢
      obtain ⟨o, ho, hr⟩ := h.chain ps (fe && rest.isEmpty) s hs (andThen_ne hn)
      have hi := Sem.item_sync _ _ _ _ _ ho
      cases rest with
      | nil =>
        simp only [List.isEmpty_nil, Bool.and_true] at *
        exact lists_last h hi hr hn
      | cons b rest =>
        simp only [List.isEmpty_cons, Bool.and_false] at *
        exact lists_then h hi hr hn
    · simp only [Bool.not_true, Bool.false_eq_true, if_false] at hn ⊢
      obtain ⟨o, ho, hr⟩ := sound_async hs ps
      exact lists_then h ho hr hn

theorem sound_listsStop (l : List AndOr) (fe : Bool) (s : St σ) (hs : needBreak s = true) :
    lists E rec l fe s = fin E fe s := by
  match l with
  | [] => rfl
  | .mk ps async :: rest => simp [lists, hs]

/-! ## Pipelines -/

theorem examined_examined (c : Ctx) : c.examined.examined = c.examined := rfl

/-- The pipeline at the head of a chain, its status being examined or not. -/
theorem sound_chain (h : Sound E rec) (ps : List Pipeline) (fe : Bool) (s : St σ) (hs : Start s) :
    Good E fe s (.chain ps) (pipes E rec true ps fe s) := by
  intro hn
  match ps with
  | [] => exact ⟨_, .chain_nil _ _ _, rel_fin (Same.refl s) hs⟩
  | .mk cs neg cond :: rest =>
    simp only [pipes, Bool.not_true, Bool.false_and, Bool.false_eq_true, if_false] at hn ⊢
    have hst : ∀ b, Start { s with see := s.see || b, ser := s.ser || b } := fun b => hs
    have hc : ∀ b, ctxOf { s with see := s.see || b, ser := s.ser || b } = if b then (ctxOf s).examined else ctxOf s := by
      intro b; cases b <;> simp [ctxOf, Ctx.examined]
    obtain ⟨o, ho, hr⟩ := h.commands cs (fe && rest.isEmpty && !neg)
      { s with see := s.see || (neg || !rest.isEmpty), ser := s.ser || (neg || !rest.isEmpty) } (hst _) (andThen_ne hn)
    rw [hc] at ho
    -- the pipeline at the head
    cases hfe : (fe && rest.isEmpty && !neg)
    · rw [hfe] at hr hn
      -- the process does not end in the pipeline
      rcases hr.cases_false with ⟨st, w, hre, rfl⟩ | ⟨t, sig, hre, rfl, hsm, hp⟩
      · refine ⟨.exit st w, ?_, by rw [hre]; exact Rel.exit _ _⟩
        have hpl : Sem E (fun _ => 0) (if rest = [] then ctxOf s else (ctxOf s).examined) (.pipeline (.mk cs neg cond))
            s.status s.sh (.exit st w) := by
          cases neg
          · refine .pipeline _ _ _ _ _ _ ?_
            cases rest <;> simpa [examined_examined] using ho
          · refine .negated_stop _ _ _ _ _ _ ?_ goesOn_exit
            cases rest <;> simpa [examined_examined] using ho
        cases rest with
        | nil => exact .chain_last _ _ _ _ _ (by simpa using hpl)
        | cons p rest => exact .chain_stop _ _ _ _ _ _ (by simp) (by simpa using hpl) goesOn_exit
      · rw [hre] at hn ⊢
        simp only [Res.andThen] at hn ⊢
        have hs1 : Same s (unsuppress s t) := ⟨hsm.1, hsm.2, rfl, rfl⟩
        have hp1 : Pend (unsuppress s t) sig := by cases sig <;> exact hp
        generalize ht1 : unsuppress s t = t1 at hn hs1 hp1 ⊢
        have e1 : t1.status = t.status := by rw [← ht1]; rfl
        have e2 : t1.sh = t.sh := by rw [← ht1]; rfl
        rw [← e1, ← e2] at ho
        by_cases hsig : sig = .normal
        · subst hsig
          have hnb : needBreak t1 = false := Start.needBreak hp1
          simp only [hnb, Bool.false_eq_true, if_false] at hn ⊢
          generalize ht2 : negate neg t1 = t2 at hn ⊢
          have hs2 : Same s t2 := by
            rw [← ht2]; cases neg
            · exact hs1
            · exact ⟨hs1.1, hs1.2, hs1.3, hs1.4⟩
          have hp2 : Start t2 := by
            rw [← ht2]; cases neg
            · exact hp1
            · exact hp1
          have hpl : Sem E (fun _ => 0) (if rest = [] then ctxOf s else (ctxOf s).examined) (.pipeline (.mk cs neg cond))
              s.status s.sh (.done .normal t2.status t2.sh) := by
            cases neg
            · simp only [negate, Bool.false_eq_true, if_false] at ht2
              subst ht2
              refine .pipeline _ _ _ _ _ _ ?_
              cases rest <;> simpa [examined_examined] using ho
            · simp only [negate, if_true] at ht2
              have := Sem.negated (if rest = [] then ctxOf s else (ctxOf s).examined) cs cond s.status t1.status s.sh t1.sh
                (by cases rest <;> simpa [examined_examined] using ho)
              have e : t2.status = if t1.status = 0 then 1 else 0 := by
                rw [← ht2]; simp [Exit_SUCCESS, Exit_FAILURE]
              have e' : t2.sh = t1.sh := by rw [← ht2]
              rw [e, e']; exact this
          obtain ⟨o', ho', hr'⟩ := h.behind rest fe t2 hp2 hn
          rw [hs2.ctx] at ho'
          cases rest with
          | nil =>
            cases ho' with
            | behind_nil => exact ⟨_, .chain_last _ _ _ _ _ (by simpa using hpl), hr'.same hs2⟩
          | cons p rest => exact ⟨_, .chain_cons _ _ _ _ _ _ _ _ (by simp) (by simpa using hpl) ho', hr'.same hs2⟩
        · have hb := (Same.signal hp1).2 hsig
          simp only [hb, if_true] at hn ⊢
          refine ⟨_, ?_, rel_fin hs1 hp1⟩
          have hg : ¬ (Out.done sig t1.status t1.sh : Out σ ω).goesOn := fun hh => hsig (goesOn_done.1 hh)
          have hpl : Sem E (fun _ => 0) (if rest = [] then ctxOf s else (ctxOf s).examined) (.pipeline (.mk cs neg cond))
              s.status s.sh (.done sig t1.status t1.sh) := by
            cases neg
            · refine .pipeline _ _ _ _ _ _ ?_
              cases rest <;> simpa [examined_examined] using ho
            · refine .negated_stop _ _ _ _ _ _ ?_ hg
              cases rest <;> simpa [examined_examined] using ho
          cases rest with
          | nil => exact .chain_last _ _ _ _ _ (by simpa using hpl)
          | cons p rest => exact .chain_stop _ _ _ _ _ _ (by simp) (by simpa using hpl) hg
    · -- the process ends in the pipeline
      rw [hfe] at hr hn
      simp only [Bool.and_eq_true, Bool.not_eq_true', List.isEmpty_iff] at hfe
      obtain ⟨⟨rfl, rfl⟩, rfl⟩ := hfe
      refine ⟨o, .chain_last _ _ _ _ _ (.pipeline _ _ _ _ _ _ (by simpa using ho)), ?_⟩
      generalize hre : rec (.commands cs true)
        { s with see := s.see || (false || !([] : List Pipeline).isEmpty), ser := s.ser || (false || !([] : List Pipeline).isEmpty) } = r at hr hn ⊢
      cases r with
      | none => exact absurd hr (by simp [Rel])
      | exit st w => exact hr
      | ok t => cases o with
        | done sig st sh => exact absurd hr.1 (by simp)
        | exit st w => exact absurd hr (by simp [Rel])

theorem sound_behind (h : Sound E rec) (ps : List Pipeline) (fe : Bool) (s : St σ) (hs : Start s) :
    Good E fe s (.behind ps) (pipes E rec false ps fe s) := by
  intro hn
  match ps with
  | [] => exact ⟨_, .behind_nil _ _ _, rel_fin (Same.refl s) hs⟩
  | .mk cs neg cond :: rest =>
    by_cases hskip : (!false && cond == (s.status != Exit_SUCCESS)) = true
    · have e : pipes E rec false (.mk cs neg cond :: rest) fe s = rec (.pipes false rest fe) s := by
        simp only [pipes]; rw [if_pos hskip]
      rw [e] at hn ⊢
      obtain ⟨o, ho, hr⟩ := h.behind rest fe s hs hn
      refine ⟨o, ?_, hr⟩
      cases cond
      · have h0 : s.status = 0 := by simpa [Exit_SUCCESS] using hskip
        rw [h0] at ho ⊢
        exact .or_skip _ _ _ _ _ _ ho
      · have h0 : s.status ≠ 0 := by simpa [Exit_SUCCESS] using hskip
        exact .and_skip _ _ _ _ _ _ _ h0 ho
    · have e : pipes E rec false (.mk cs neg cond :: rest) fe s = pipes E rec true (.mk cs neg cond :: rest) fe s := by
        simp only [pipes]; rw [if_neg hskip]; rfl
      rw [e] at hn ⊢
      obtain ⟨o, ho, hr⟩ := sound_chain h (.mk cs neg cond :: rest) fe s hs hn
      refine ⟨o, ?_, hr⟩
      cases cond
      · have h0 : s.status ≠ 0 := by simpa [Exit_SUCCESS] using hskip
        exact .or_run _ _ _ _ _ _ _ h0 ho
      · have h0 : s.status = 0 := by simpa [Exit_SUCCESS] using hskip
        rw [h0] at ho ⊢
        exact .and_run _ _ _ _ _ _ ho

end Yash.Exec
