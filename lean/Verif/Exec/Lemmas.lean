import Verif.Exec.Model
import Verif.Exec.Spec
/-!
# The global flags and the outcomes of the semantics
-/
set_option autoImplicit false

namespace Yash.Exec
open Yash.Syntax Spec

variable {σ ω ρ ι : Type}

/-- What is taken for granted about single steps.  What a process leaves behind does not depend on whether it first undoes its
redirections or closes variable environments; waiting for a process makes what it has left behind what the waiting process
leaves behind if it ends; no more commands are read when the end of the input has been seen; `break` and `continue` are not
called with zero. -/
structure Lawful (E : Shell σ ω ρ ι) : Prop where
  join : ∀ s w, E.final (E.join s w) = w
  undo : ∀ r s, E.final (E.undo r s) = E.final s
  keep : ∀ r s, E.final (E.keep r s) = E.final s
  close : ∀ s, E.final (E.closeEnv s) = E.final s
  reset : ∀ s, E.final (E.resetExec s) = E.final s
  eof : ∀ inp s s' l rest, E.parse inp s = (s', .ok l rest true) →
    ∀ t, ∃ t', E.parse rest t = (t', .eof) ∧ E.final t' = E.final t
  brk : ∀ argv st s s', E.builtin argv st s ≠ (s', .brk 0)
  cont : ∀ argv st s s', E.builtin argv st s ≠ (s', .cont 0)

/-- The context that the flags stand for. -/
def ctxOf (s : St σ) : Ctx :=
  { loops := s.loopnest, ignoreExit := s.see, ignoreReturn := s.ser, noReturn := s.noreturn }

/-- The signal that the flags stand for. -/
def Pend (s : St σ) : Sig → Prop
  | .normal => s.exc = .none ∧ s.loopnest ≤ s.breakloopnest
  | .brk n => s.exc = .none ∧ 1 ≤ n ∧ s.breakloopnest + n = s.loopnest ∧ s.status = 0
  | .cont n => s.exc = .cont ∧ 1 ≤ n ∧ n ≤ s.loopnest ∧ s.breakloopnest + n = s.loopnest + 1 ∧ s.status = 0
  | .ret => s.exc = .ret ∧ s.loopnest ≤ s.breakloopnest

/-- No `break`, `continue` or `return` is under way. -/
abbrev Start (s : St σ) : Prop := Pend s .normal

/-- The flags that a command does not change. -/
structure Same (s t : St σ) : Prop where
  loopnest : t.loopnest = s.loopnest
  noreturn : t.noreturn = s.noreturn
  see : t.see = s.see
  ser : t.ser = s.ser

theorem Same.refl (s : St σ) : Same s s := ⟨rfl, rfl, rfl, rfl⟩

theorem Same.trans {s t u : St σ} (h : Same s t) (h' : Same t u) : Same s u :=
  ⟨h'.1.trans h.1, h'.2.trans h.2, h'.3.trans h.3, h'.4.trans h.4⟩

theorem Same.ctx {s t : St σ} (h : Same s t) : ctxOf t = ctxOf s := by
  simp [ctxOf, h.1, h.2, h.3, h.4]

/-- The state stands for this outcome. -/
structure Ends (s t : St σ) (sig : Sig) (st : Nat) (sh : σ) : Prop where
  same : Same s t
  pend : Pend t sig
  status : t.status = st
  state : t.sh = sh

/-- The result stands for this outcome; with `fe`, what is seen of the process in the end is the same. -/
def Rel (E : Shell σ ω ρ ι) (fe : Bool) (s : St σ) : Res σ ω → Out σ ω → Prop
  | .none, _ => False
  | .exit st w, o => if fe then o.finish E = (st % 256, w) else o = .exit st w
  | .ok t, .done sig st sh => fe = false ∧ Ends s t sig st sh
  | .ok _, .exit _ _ => False

/-- The result, if there is one, stands for an outcome that the semantics allows. -/
def Good (E : Shell σ ω ρ ι) (fe : Bool) (s : St σ) (x : Node ι) (r : Res σ ω) : Prop :=
  r ≠ .none → ∃ o, Sem E (fun _ => 0) (ctxOf s) x s.status s.sh o ∧ Rel E fe s r o

variable {E : Shell σ ω ρ ι}

theorem Good.none {fe : Bool} {s : St σ} {x : Node ι} : Good E fe s x .none := fun h => absurd rfl h

theorem Rel.same {fe : Bool} {s t : St σ} {r : Res σ ω} {o : Out σ ω} (h : Same s t) (hr : Rel E fe t r o) :
    Rel E fe s r o := by
  cases r with
  | none => exact hr
  | exit st w => exact hr
  | ok u =>
    cases o with
    | done sig st sh => exact ⟨hr.1, h.trans hr.2.same, hr.2.pend, hr.2.status, hr.2.state⟩
    | exit st w => exact hr

/-- An exact result is good in both cases. -/
theorem Rel.exit {fe : Bool} {s : St σ} (st : Nat) (w : ω) : Rel E fe s (.exit st w) (.exit st w) := by
  cases fe <;> simp [Rel, Out.finish]

theorem rel_fin {fe : Bool} {s t : St σ} {sig : Sig} (h : Same s t) (hp : Pend t sig) :
    Rel E fe s (fin E fe t) (.done sig t.status t.sh) := by
  cases fe
  · exact ⟨rfl, h, hp, rfl, rfl⟩
  · simp [fin, Rel, exitWith, Out.finish]

theorem Same.signal {s : St σ} {sig : Sig} (h : Pend s sig) : needBreak s = true ↔ sig ≠ .normal := by
  cases sig <;> simp only [Pend, needBreak] at * <;> simp [h.1] <;> omega

theorem Start.needBreak {s : St σ} (h : Start s) : needBreak s = false := by
  have := Same.signal h
  simpa using this

theorem finish_checked (c : Ctx) (sig : Sig) (st : Nat) (s : σ) :
    (checked E c sig st s : Out σ ω).finish E = (st % 256, E.final s) := by
  unfold checked; split
  · rfl
  · split <;> rfl

theorem finish_out_checked (c : Ctx) (o : Out σ ω) : (o.checked E c).finish E = o.finish E := by
  cases o with
  | done sig st s => exact finish_checked c sig st s
  | exit st w => rfl

theorem finish_after (f : Nat → σ → σ) (hf : ∀ st s, E.final (f st s) = E.final s) (o : Out σ ω) :
    (o.after f).finish E = o.finish E := by
  cases o with
  | done sig st s => simp [Out.after, Out.finish, hf]
  | exit st w => rfl

/-- `apply_errexit_errreturn` is `checked`, unless loops are being left. -/
theorem applyErr_checked {s t : St σ} {sig : Sig} (h : Same s t) (hp : Pend t sig) :
    Rel E false s (applyErr E true t) (checked E (ctxOf s) sig t.status t.sh) := by
  unfold applyErr checked
  have hc := h.ctx
  by_cases h0 : t.status = 0
  · simp [errexitCondition, errreturnCondition, h0, Exit_SUCCESS]
    exact ⟨rfl, h, hp, h0, rfl⟩
  · have e1 : errexitCondition E t = true ↔ (t.status ≠ 0 ∧ E.errexit t.sh = true ∧ (ctxOf s).ignoreExit = false) := by
      simp [errexitCondition, ctxOf, ← h.3, Exit_SUCCESS, h0]
    have e2 : errreturnCondition E t = true ↔ (t.status ≠ 0 ∧ E.errreturn t.sh = true ∧ (ctxOf s).ignoreReturn = false ∧
        (ctxOf s).noReturn = false) := by
      simp [errreturnCondition, ctxOf, ← h.2, ← h.4, Exit_SUCCESS, h0, and_assoc]
    by_cases c1 : errexitCondition E t = true
    · rw [if_pos (by simp [c1]), if_pos (e1.1 c1)]
      exact Rel.exit _ _
    · rw [if_neg (by simp [c1]), if_neg (fun hh => c1 (e1.2 hh))]
      by_cases c2 : errreturnCondition E t = true
      · rw [if_pos (by simp [c2]), if_pos (e2.1 c2)]
        refine ⟨rfl, ⟨h.1, h.2, h.3, h.4⟩, ⟨rfl, ?_⟩, rfl, rfl⟩
        cases sig <;> simp only [Pend] at hp
        · exact hp.2
        · exact absurd hp.2.2.2 h0
        · exact absurd hp.2.2.2.2 h0
        · exact hp.2
      · rw [if_neg (by simp [c2]), if_neg (fun hh => c2 (e2.2 hh))]
        exact ⟨rfl, h, hp, rfl, rfl⟩

theorem applyErr_false (s : St σ) : applyErr E false s = .ok s := by simp [applyErr]

theorem applyErr_ne_none (b : Bool) (s : St σ) : applyErr E b s ≠ .none := by
  unfold applyErr exitWith; split
  · simp
  · split <;> simp

/-- A result followed by `if (finally_exit) exit_shell();`. -/
theorem Rel.fin {fe : Bool} {s : St σ} {r : Res σ ω} {o : Out σ ω} (h : Rel E false s r o) :
    Rel E fe s (r.andThen (Exec.fin E fe)) o := by
  cases r with
  | none => exact h
  | exit st w => simp only [Res.andThen]; simp only [Rel] at h; simp at h; subst h; exact Rel.exit _ _
  | ok t =>
    cases o with
    | done sig st sh =>
      obtain ⟨_, h⟩ := h
      have := rel_fin (E := E) (fe := fe) h.same h.pend
      rw [h.status, h.state] at this
      exact this
    | exit st w => exact absurd h (by simp [Rel])

/-- The same when the result may already be the end. -/
theorem Rel.fin' {fe : Bool} {s : St σ} {r : Res σ ω} {o : Out σ ω} (h : Rel E fe s r o) :
    Rel E fe s (r.andThen (Exec.fin E fe)) o := by
  cases fe
  · exact h.fin
  · cases r with
    | none => exact h
    | exit st w => exact h
    | ok t => cases o with
      | done sig st sh => exact absurd h.1 (by simp)
      | exit st w => exact absurd h (by simp [Rel])

end Yash.Exec
