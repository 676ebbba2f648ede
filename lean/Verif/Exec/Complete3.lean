import Verif.Exec.Complete2
/-!
# The functions do all that the semantics says: compound commands and scripts
-/
set_option autoImplicit false

namespace Yash.Exec
open Yash.Syntax Spec

variable {σ ω ρ ι : Type} {E : Shell σ ω ρ ι}

theorem does_subshell (hE : Lawful E) {r : List Redir} {l : List AndOr} {S : St σ} {fe : Bool} {o : Out σ ω} (hs : Start S)
    (h : Does E (ctxOf S).fresh (.list l) S.status (E.enter S.sh) o) :
    Rel E fe S (exec E (.nonsimple (.subshell r l) fe) S) (.done .normal (o.finish E).1 (E.join S.sh (o.finish E).2)) := by
  rw [exec_nonsimple]
  obtain ⟨st, w, hre, hf⟩ := (h (becomeChild (E.enter S.sh) S) true (becomeChild_start hs _) rfl rfl rfl).cases_true
  rw [hf]
  cases fe
  · simp only [nonsimple, Bool.false_eq_true, if_false, subshell]
    rw [hre]
    exact ⟨rfl, ⟨rfl, rfl, rfl, rfl⟩, hs, rfl, rfl⟩
  · simp only [nonsimple, if_true]
    rw [hre]
    simp [Rel, Out.finish, hE.join]

/-! ## `if` -/

theorem does_cond {l : List AndOr} {S : St σ} {o : Out σ ω} (hs : Start S)
    (h : Does E (ctxOf S).examined (.list l) S.status S.sh o) : Rel E false S (exec E (.cond l) S) o := by
  rw [exec_cond]
  have hr := h { S with see := true, ser := true } false hs rfl rfl rfl
  cases l with
  | nil =>
    rw [exec_lists] at hr
    rcases hr.cases_false with ⟨st, w, e, _⟩ | ⟨t, sig, e, rfl, h1, h2⟩
    · simp [lists, fin] at e
    · simp only [lists, fin, Bool.false_eq_true, if_false, Res.ok.injEq] at e
      subst e
      refine ⟨rfl, Same.refl _, ?_, rfl, rfl⟩
      cases sig <;> exact h2
  | cons a l =>
    simp only [cond]
    rcases hr.cases_false with ⟨st, w, e, rfl⟩ | ⟨t, sig, e, rfl, h1, h2⟩
    · rw [e]; exact Rel.exit _ _
    · rw [e]
      refine ⟨rfl, ⟨h1.1, h1.2, rfl, rfl⟩, ?_, rfl, rfl⟩
      cases sig <;> exact h2

theorem exec_ifs_cond (i l : List AndOr) (cl : List IfClause) (fe : Bool) {S : St σ} (hs : Start S) :
    exec E (.ifs (.cond i l :: cl) fe) S =
      (exec E (.cond i) S).andThen fun s =>
        if condValue i s then exec E (.lists l fe) s else exec E (.ifs cl fe) s := by
  rw [exec_ifs]
  simp only [ifs, hs.needBreak, Bool.false_eq_true, if_false]

theorem does_ifs_normal {i l : List AndOr} {cl : List IfClause} {S : St σ} {fe : Bool} {st' : Nat} {s' : σ} {o : Out σ ω}
    (hs : Start S) (h1 : Does E (ctxOf S).examined (.list i) S.status S.sh (.done .normal st' s'))
    (h2 : Holds i st' → Does E (ctxOf S) (.list l) st' s' o) (h3 : ¬ Holds i st' → Does E (ctxOf S) (.ifs cl) st' s' o) :
    Rel E fe S (exec E (.ifs (.cond i l :: cl) fe) S) o := by
  rw [exec_ifs_cond i l cl fe hs]
  obtain ⟨t, hr, ht⟩ := (does_cond hs h1).of_done
  rw [hr]
  simp only [Res.andThen]
  by_cases hv : condValue i t = true
  · rw [if_pos hv]
    have := (condValue_iff i t).1 hv
    rw [ht.status] at this
    exact (h2 this t fe ht.pend ht.same.ctx ht.status ht.state).same ht.same
  · rw [if_neg hv]
    have : ¬ Holds i st' := by rw [← ht.status]; exact fun x => hv ((condValue_iff i t).2 x)
    exact (h3 this t fe ht.pend ht.same.ctx ht.status ht.state).same ht.same

theorem does_ifs_signal {i l : List AndOr} {cl : List IfClause} {S : St σ} {fe : Bool} {st' : Nat} {s' : σ} {sig : Sig}
    (hs : Start S) (h1 : Does E (ctxOf S).examined (.list i) S.status S.sh (.done sig st' s')) (hsig : sig ≠ .normal) :
    Rel E fe S (exec E (.ifs (.cond i l :: cl) fe) S) (.done sig (if st' ≠ 0 ∧ cl = [] then 0 else st') s') := by
  rw [exec_ifs_cond i l cl fe hs]
  obtain ⟨t, hr, ht⟩ := (does_cond hs h1).of_done
  have hne : i ≠ [] := by
    rintro rfl
    rw [exec_cond] at hr
    simp only [cond, Res.ok.injEq] at hr
    subst hr
    exact hsig (pend_unique ht.pend hs)
  rw [hr]
  simp only [Res.andThen]
  have hb := (Same.signal ht.pend).2 hsig
  rw [← ht.status, ← ht.state]
  by_cases hv : condValue i t = true
  · rw [if_pos hv, exec_lists, sound_listsStop l fe t hb]
    have h0 : t.status = 0 := ((condValue_iff i t).1 hv).resolve_left hne
    rw [if_neg (by simp [h0])]
    exact rel_fin ht.same ht.pend
  · rw [if_neg hv, exec_ifs]
    have h0 : t.status ≠ 0 := fun e => hv ((condValue_iff i t).2 (.inr e))
    cases cl with
    | nil =>
      rw [if_pos ⟨h0, rfl⟩]
      refine rel_fin (t := { t with status := 0 }) ⟨ht.same.1, ht.same.2, ht.same.3, ht.same.4⟩ ?_
      have hp := ht.pend
      cases sig
      · exact hp
      · exact absurd hp.2.2.2 h0
      · exact absurd hp.2.2.2.2 h0
      · exact hp
    | cons x cl =>
      rw [if_neg (by simp), sound_ifsStop (x :: cl) fe t hb (by simp)]
      exact rel_fin ht.same ht.pend

/-! ## Loops -/

theorem LoopRel.exit {fe : Bool} {s : St σ} (st : Nat) (w : ω) : LoopRel E fe s (.exit st w) (.exit st w) := by
  cases fe <;> simp [LoopRel, Out.finish]

theorem LoopRel.same {fe : Bool} {s t : St σ} {r : Res σ ω} {o : Out σ ω} (hs : Same s t) (h : LoopRel E fe t r o) :
    LoopRel E fe s r o := by
  cases r with
  | none => exact h
  | exit st w => exact h
  | ok u =>
    obtain ⟨sig, e, h1, h2, h3⟩ := h
    exact ⟨sig, e, h1, hs.outside.trans h2, h3⟩

/-- After a round of a loop. -/
theorem looprel_next {fe : Bool} {S t : St σ} {sig : Sig} {f : St σ → Res σ ω} {o : Out σ ω} (h0 : 0 < S.loopnest)
    (hs : Same S t) (hp : Pend t sig)
    (hagain : again sig → ∀ u, Start u → 0 < u.loopnest → u.status = t.status → u.sh = t.sh → Same S u → LoopRel E fe u (f u) o)
    (hleave : ¬ again sig → o = .done (leave sig) t.status t.sh) :
    LoopRel E fe S (checkLoop t f f) o := by
  have ht : 0 < t.loopnest := by rw [hs.1]; exact h0
  by_cases ha : again sig
  · rcases ha with rfl | rfl
    · rw [checkLoop_normal hp]
      exact (hagain (.inl rfl) t hp ht rfl rfl hs).same hs
    · rw [checkLoop_cont hp]
      have hst : Start { t with exc := .none } := ⟨rfl, by have := hp.2.2.2.1; simp only; omega⟩
      have hsm : Same S { t with exc := .none } := ⟨hs.1, hs.2, hs.3, hs.4⟩
      exact (hagain (.inr rfl) { t with exc := .none } hst ht rfl rfl hsm).same hsm
  · obtain ⟨e, hl⟩ := checkLoop_leave (ω := ω) hp ht ha f f
    rw [e]
    exact ⟨leave sig, hleave ha, ht, hs.outside, hl⟩

theorem looprel_fin {fe : Bool} {S : St σ} {r : Res σ ω} {sh : σ} {o : Out σ ω}
    (h : LoopRel E fe { S with loopnest := S.loopnest + 1, breakloopnest := S.loopnest + 1, sh := sh } r o) :
    Rel E fe S (r.andThen fun t => fin E fe (outside t)) o := by
  cases r with
  | none => exact h
  | exit st w => exact h
  | ok t =>
    obtain ⟨sig, rfl, h1, h2, h3⟩ := h
    exact rel_fin (t := outside t) ⟨h2.1, h2.2, h2.3, h2.4⟩ h3

theorem exec_forLoop_ok {n v : Str} {vs : List Str} {l : List AndOr} {fe : Bool} {S : St σ} {s' : σ}
    (he : E.setVar n v S.sh = (s', true)) :
    exec E (.forLoop n (v :: vs) l fe) S =
      (exec E (.lists l (fe && vs.isEmpty)) { S with sh := s' }).andThen fun s =>
        checkLoop s (exec E (.forLoop n vs l fe)) (exec E (.forLoop n vs l fe)) := by
  rw [exec_forLoop]
  simp only [forLoop]
  rw [he]

theorem does_words {n v : Str} {vs : List Str} {l : List AndOr} {sig : Sig} {S : St σ} {fe : Bool} {st' : Nat} {s' s'' : σ}
    {o : Out σ ω} (h0 : 0 < S.loopnest) (hs : Start S) (he : E.setVar n v S.sh = (s', true))
    (h : Does E (ctxOf (outside S)).inLoop (.list l) S.status s' (.done sig st' s''))
    (hagain : again sig → Does E (ctxOf (outside S)) (.words n vs l) st' s'' o)
    (hnil : again sig → vs = [] → o = .done .normal st' s'')
    (hleave : ¬ again sig → o = .done (leave sig) st' s'') :
    LoopRel E fe S (exec E (.forLoop n (v :: vs) l fe) S) o := by
  rw [exec_forLoop_ok he]
  rw [inLoop_outside h0] at h
  have hr := h { S with sh := s' } (fe && vs.isEmpty) hs rfl rfl rfl
  cases hfe : (fe && vs.isEmpty)
  · rw [hfe] at hr
    obtain ⟨t, hre, ht⟩ := hr.of_done
    rw [hre]
    simp only [Res.andThen]
    have hsm : Same S t := ⟨ht.same.1, ht.same.2, ht.same.3, ht.same.4⟩
    refine looprel_next h0 hsm ht.pend (fun ha u h1 h2 e1 e2 hu => ?_) (fun ha => ?_)
    · exact hagain ha u fe h2 h1 hu.outside.ctx (e1.trans ht.status) (e2.trans ht.state)
    · rw [hleave ha, ht.status, ht.state]
  · rw [hfe] at hr
    obtain ⟨st, w, hre, hf⟩ := hr.cases_true
    simp only [Bool.and_eq_true, List.isEmpty_iff] at hfe
    obtain ⟨rfl, rfl⟩ := hfe
    rw [hre]
    by_cases ha : again sig
    · rw [hnil ha rfl]
      simpa [LoopRel, Out.finish, Res.andThen] using hf
    · rw [hleave ha]
      simpa [LoopRel, Out.finish, Res.andThen] using hf

theorem does_words_exit {n v : Str} {vs : List Str} {l : List AndOr} {S : St σ} {fe : Bool} {st' : Nat} {s' : σ} {w : ω}
    (h0 : 0 < S.loopnest) (hs : Start S) (he : E.setVar n v S.sh = (s', true))
    (h : Does E (ctxOf (outside S)).inLoop (.list l) S.status s' (.exit st' w)) :
    LoopRel E fe S (exec E (.forLoop n (v :: vs) l fe) S) (.exit st' w) := by
  rw [exec_forLoop_ok he]
  rw [inLoop_outside h0] at h
  have hr := h { S with sh := s' } (fe && vs.isEmpty) hs rfl rfl rfl
  cases hfe : (fe && vs.isEmpty)
  · rw [hfe] at hr
    rw [hr.of_exit]
    exact LoopRel.exit _ _
  · rw [hfe] at hr
    obtain ⟨st, w, hre, hf⟩ := hr.cases_true
    simp only [Bool.and_eq_true, List.isEmpty_iff] at hfe
    obtain ⟨rfl, rfl⟩ := hfe
    rw [hre]
    simpa [LoopRel, Res.andThen] using hf

theorem exec_forLoop_fail {n v : Str} {vs : List Str} {l : List AndOr} {fe : Bool} {S : St σ} {s' : σ}
    (he : E.setVar n v S.sh = (s', false)) :
    exec E (.forLoop n (v :: vs) l fe) S =
      (applyErr E true { S with status := Exit_ASSGNERR, sh := s' }).andThen fun s => fin E (!E.interactive s.sh) s := by
  rw [exec_forLoop]
  simp only [forLoop]
  rw [he]

theorem does_words_fatal {n v : Str} {vs : List Str} {l : List AndOr} {fe : Bool} {S : St σ} {s' : σ}
    (he : E.setVar n v S.sh = (s', false)) (hi : E.interactive s' = false) :
    LoopRel E fe S (exec E (.forLoop n (v :: vs) l fe) S) (.exit 2 (E.final s')) := by
  rw [exec_forLoop_fail he]
  have : (applyErr E true { S with status := Exit_ASSGNERR, sh := s' }).andThen
      (fun s => fin E (!E.interactive s.sh) s) = .exit 2 (E.final s') := by
    unfold applyErr
    split
    · rfl
    · split <;> simp [Res.andThen, fin, hi, exitWith, Exit_ASSGNERR]
  rw [this]
  exact LoopRel.exit _ _

theorem does_words_error {n v : Str} {vs : List Str} {l : List AndOr} {fe : Bool} {S : St σ} {s' : σ} (h0 : 0 < S.loopnest)
    (hs : Start S) (he : E.setVar n v S.sh = (s', false)) (hi : E.interactive s' = true) :
    LoopRel E fe S (exec E (.forLoop n (v :: vs) l fe) S) (checked E (ctxOf (outside S)) .normal 2 s') := by
  rw [exec_forLoop_fail he]
  have hr : Rel E false S (applyErr E true { S with status := Exit_ASSGNERR, sh := s' })
      (checked E (ctxOf (outside S)) .normal 2 s') :=
    applyErr_checked (E := E) (sig := .normal) (s := S) (t := { S with status := Exit_ASSGNERR, sh := s' }) ⟨rfl, rfl, rfl, rfl⟩ hs
  rcases hr.cases_false with ⟨st, w, hre, e⟩ | ⟨t, sig, hre, e, hsm, hp⟩
  · rw [hre, e]
    exact LoopRel.exit _ _
  · rw [hre]
    simp only [Res.andThen]
    obtain ⟨hsh, hsig⟩ := checked_done e
    rw [hsh, hi]
    refine ⟨sig, e, by rw [hsm.1]; exact h0, hsm.outside, ?_⟩
    rcases hsig with rfl | rfl
    · exact ⟨hp.1, by have := hp.2; simp only [outside]; omega⟩
    · exact ⟨hp.1, by have := hp.2; simp only [outside]; omega⟩

theorem execFor_eq (name : Str) (words : Option (List Word)) (body : List AndOr) (fe : Bool) (S : St σ) :
    execFor E (exec E) name words body fe S =
      match (match words with
        | some ws => E.expandLine ws S.status S.sh
        | none => (S.sh, some (E.positional S.sh))) with
      | (sh, none) =>
        (applyErr E true { S with status := Exit_EXPERROR, loopnest := S.loopnest + 1, breakloopnest := S.loopnest + 1, sh := sh }).andThen
          fun t => fin E fe (outside t)
      | (sh, some ws) =>
        (exec E (.forLoop name ws body fe) { S with loopnest := S.loopnest + 1, breakloopnest := S.loopnest + 1, sh := sh }).andThen
          fun t => fin E fe (outside (if ws.isEmpty && !body.isEmpty then { t with status := Exit_SUCCESS } else t)) := rfl

theorem does_for_words {n : Str} {l : List AndOr} {S : St σ} {fe : Bool} {s' : σ} {vs : List Str} {o : Out σ ω}
    (hs : Start S) (hv : vs ≠ []) (h : Does E (ctxOf S) (.words n vs l) S.status s' o) :
    Rel E fe S ((exec E (.forLoop n vs l fe) { S with loopnest := S.loopnest + 1, breakloopnest := S.loopnest + 1, sh := s' }).andThen
      fun t => fin E fe (outside (if vs.isEmpty && !l.isEmpty then { t with status := Exit_SUCCESS } else t))) o := by
  obtain ⟨v, vs, rfl⟩ := List.exists_cons_of_ne_nil hv
  exact looprel_fin (h { S with loopnest := S.loopnest + 1, breakloopnest := S.loopnest + 1, sh := s' } fe (by simp)
    ⟨hs.1, Nat.le_refl _⟩ rfl rfl rfl)

theorem does_for_none {n : Str} {l : List AndOr} {S : St σ} {fe : Bool} {s' : σ} (hs : Start S) :
    Rel E fe S ((exec E (.forLoop n [] l fe) { S with loopnest := S.loopnest + 1, breakloopnest := S.loopnest + 1, sh := s' }).andThen
      fun t => fin E fe (outside (if ([] : List Str).isEmpty && !l.isEmpty then { t with status := Exit_SUCCESS } else t)))
      (.done .normal (if l = [] then S.status else 0) s') := by
  rw [exec_forLoop]
  simp only [forLoop, Res.andThen]
  cases l with
  | nil =>
    exact rel_fin (t := outside { S with loopnest := S.loopnest + 1, breakloopnest := S.loopnest + 1, sh := s' })
      ⟨rfl, rfl, rfl, rfl⟩ ⟨hs.1, by simp [outside]⟩
  | cons a l =>
    exact rel_fin (t := outside { S with status := 0, loopnest := S.loopnest + 1, breakloopnest := S.loopnest + 1, sh := s' })
      ⟨rfl, rfl, rfl, rfl⟩ ⟨hs.1, by simp [outside]⟩

theorem does_for_error {S : St σ} {fe : Bool} {s' : σ} (hs : Start S) :
    Rel E fe S ((applyErr E true
      { S with status := Exit_EXPERROR, loopnest := S.loopnest + 1, breakloopnest := S.loopnest + 1, sh := s' }).andThen
        fun t => fin E fe (outside t)) (checked E (ctxOf S) .normal 2 s') := by
  have hp : Pend { S with status := Exit_EXPERROR, loopnest := S.loopnest + 1, breakloopnest := S.loopnest + 1, sh := s' }
      .normal := ⟨hs.1, Nat.le_refl _⟩
  have hr := applyErr_checked (E := E) (Same.refl _) hp
  rcases hr.cases_false with ⟨st, x, hre, e⟩ | ⟨t, sig, hre, e, hsm, hp2⟩
  · rw [hre]
    change (checked E (ctxOf S) .normal 2 s' : Out σ ω) = _ at e
    rw [e]
    exact Rel.exit _ _
  · rw [hre]
    change (checked E (ctxOf S) .normal 2 s' : Out σ ω) = _ at e
    have hsig := (checked_done e).2
    rw [e]
    refine rel_fin (t := outside t) ⟨?_, hsm.2, hsm.3, hsm.4⟩ ?_
    · have := hsm.1; simp only [outside] at this ⊢; omega
    · rcases hsig with rfl | rfl
      · exact ⟨hp2.1, by have := hp2.2; simp only [outside]; omega⟩
      · exact ⟨hp2.1, by have := hp2.2; simp only [outside]; omega⟩

/-! ## `while` and `until` -/

/-- What follows the condition of a loop. -/
noncomputable def whileBody (E : Shell σ ω ρ ι) (w : Bool) (c body : List AndOr) (last : Nat) (s : St σ) : Res σ ω :=
  if condValue c s != w then .ok { s with status := last }
  else
    match body with
    | [] => exec E (.whileLoop w c body last) s
    | body =>
      (exec E (.lists body false) s).andThen fun s =>
      checkLoop s (exec E (.whileLoop w c body s.status)) (exec E (.whileLoop w c body s.status))

theorem exec_while_eq (w : Bool) (c body : List AndOr) (last : Nat) (S : St σ) :
    exec E (.whileLoop w c body last) S =
      (exec E (.cond c) S).andThen fun s => checkLoop s (exec E (.whileLoop w c body last)) (whileBody E w c body last) := by
  rw [exec_whileLoop]; rfl

theorem does_loop_cond {i : List AndOr} {S : St σ} {o : Out σ ω} (h0 : 0 < S.loopnest) (hs : Start S)
    (h : Does E (ctxOf (outside S)).inLoop.examined (.list i) S.status S.sh o) : Rel E false S (exec E (.cond i) S) o := by
  rw [inLoop_outside h0] at h
  exact does_cond hs h

theorem does_loop_end {w : Bool} {i l : List AndOr} {last : Nat} {S : St σ} {st' : Nat} {s' : σ} (h0 : 0 < S.loopnest)
    (hs : Start S) (h : Does E (ctxOf (outside S)).inLoop.examined (.list i) S.status S.sh (.done .normal st' s'))
    (hv : ¬ (Holds i st' ↔ w = true)) :
    LoopRel E false S (exec E (.whileLoop w i l last) S) (.done .normal last s') := by
  rw [exec_while_eq]
  obtain ⟨t, hr, ht⟩ := (does_loop_cond h0 hs h).of_done
  rw [hr]
  simp only [Res.andThen]
  rw [checkLoop_normal ht.pend]
  unfold whileBody
  rw [if_pos ((holds_ne i w t).2 (by rw [ht.status]; exact hv)), ← ht.state]
  exact ⟨.normal, rfl, by have := ht.same.1; simp only; omega, ⟨ht.same.outside.1, ht.same.2, ht.same.3, ht.same.4⟩, ht.pend.1,
    by have := ht.pend.2; simp only [outside]; omega⟩

theorem does_loop_cond_again {w : Bool} {i l : List AndOr} {last : Nat} {S : St σ} {st' : Nat} {s' : σ} {o : Out σ ω}
    (h0 : 0 < S.loopnest) (hs : Start S)
    (h : Does E (ctxOf (outside S)).inLoop.examined (.list i) S.status S.sh (.done (.cont 1) st' s'))
    (h2 : Does E (ctxOf (outside S)) (.loop w i l last) st' s' o) :
    LoopRel E false S (exec E (.whileLoop w i l last) S) o := by
  rw [exec_while_eq]
  obtain ⟨t, hr, ht⟩ := (does_loop_cond h0 hs h).of_done
  rw [hr]
  simp only [Res.andThen]
  rw [checkLoop_cont ht.pend]
  have hst : Start { t with exc := .none } := ⟨rfl, by have := ht.pend.2.2.2.1; simp only; omega⟩
  have hsm : Same S { t with exc := .none } := ⟨ht.same.1, ht.same.2, ht.same.3, ht.same.4⟩
  exact (h2 { t with exc := .none } (by have := hsm.1; simp only at this ⊢; omega) hst hsm.outside.ctx ht.status ht.state).same hsm

theorem does_loop_cond_leave {w : Bool} {i l : List AndOr} {last : Nat} {S : St σ} {sig : Sig} {st' : Nat} {s' : σ}
    (h0 : 0 < S.loopnest) (hs : Start S)
    (h : Does E (ctxOf (outside S)).inLoop.examined (.list i) S.status S.sh (.done sig st' s')) (ha : ¬ again sig) :
    LoopRel E false S (exec E (.whileLoop w i l last) S) (.done (leave sig) st' s') := by
  rw [exec_while_eq]
  obtain ⟨t, hr, ht⟩ := (does_loop_cond h0 hs h).of_done
  rw [hr]
  simp only [Res.andThen]
  have h0t : 0 < t.loopnest := by have := ht.same.1; omega
  obtain ⟨e, hl⟩ := checkLoop_leave (ω := ω) ht.pend h0t ha (exec E (.whileLoop w i l last)) (whileBody E w i l last)
  rw [e, ← ht.status, ← ht.state]
  exact ⟨leave sig, rfl, h0t, ht.same.outside, hl⟩

theorem does_loop_cond_exit {w : Bool} {i l : List AndOr} {last : Nat} {S : St σ} {st' : Nat} {x : ω}
    (h0 : 0 < S.loopnest) (hs : Start S)
    (h : Does E (ctxOf (outside S)).inLoop.examined (.list i) S.status S.sh (.exit st' x)) :
    LoopRel E false S (exec E (.whileLoop w i l last) S) (.exit st' x) := by
  rw [exec_while_eq, (does_loop_cond h0 hs h).of_exit]
  exact LoopRel.exit _ _

theorem does_loop_body {w : Bool} {i l : List AndOr} {last : Nat} {S : St σ} {sig : Sig} {st' st'' : Nat} {s' s'' : σ}
    {o : Out σ ω} (h0 : 0 < S.loopnest) (hs : Start S)
    (h : Does E (ctxOf (outside S)).inLoop.examined (.list i) S.status S.sh (.done .normal st' s')) (hv : Holds i st' ↔ w = true)
    (h2 : Does E (ctxOf (outside S)).inLoop (.list l) st' s' (.done sig st'' s''))
    (hagain : again sig → Does E (ctxOf (outside S)) (.loop w i l (if l = [] then last else st'')) st'' s'' o)
    (hleave : ¬ again sig → o = .done (leave sig) st'' s'') :
    LoopRel E false S (exec E (.whileLoop w i l last) S) o := by
  rw [exec_while_eq]
  obtain ⟨t, hr, ht⟩ := (does_loop_cond h0 hs h).of_done
  rw [hr]
  simp only [Res.andThen]
  rw [checkLoop_normal ht.pend]
  unfold whileBody
  have h0t : 0 < t.loopnest := by have := ht.same.1; omega
  rw [if_neg (fun hh => (holds_ne i w t).1 hh (by rw [ht.status]; exact hv))]
  rw [inLoop_outside h0] at h2
  have hb := h2 t false ht.pend ht.same.ctx ht.status ht.state
  obtain ⟨u, hu, hue⟩ := hb.of_done
  cases l with
  | nil =>
    rw [exec_lists] at hu
    simp only [lists, fin, Bool.false_eq_true, if_false, Res.ok.injEq] at hu
    subst hu
    have hsig : sig = .normal := pend_unique hue.pend ht.pend
    simp only
    exact (hagain (.inl hsig) t h0t ht.pend ht.same.outside.ctx hue.status hue.state).same ht.same
  | cons a l =>
    simp only
    rw [hu]
    simp only [Res.andThen]
    refine looprel_next h0 (ht.same.trans hue.same) hue.pend (fun ha v h1 h2 e1 e2 hsv => ?_) (fun ha => ?_)
    · have := hagain ha v h2 h1 hsv.outside.ctx (e1.trans hue.status) (e2.trans hue.state)
      rw [if_neg (by simp)] at this
      rw [hue.status]
      exact this
    · rw [hleave ha, hue.status, hue.state]

theorem does_loop_exit {w : Bool} {i l : List AndOr} {last : Nat} {S : St σ} {st' st'' : Nat} {s' : σ} {x : ω}
    (h0 : 0 < S.loopnest) (hs : Start S)
    (h : Does E (ctxOf (outside S)).inLoop.examined (.list i) S.status S.sh (.done .normal st' s')) (hv : Holds i st' ↔ w = true)
    (h2 : Does E (ctxOf (outside S)).inLoop (.list l) st' s' (.exit st'' x)) :
    LoopRel E false S (exec E (.whileLoop w i l last) S) (.exit st'' x) := by
  rw [exec_while_eq]
  obtain ⟨t, hr, ht⟩ := (does_loop_cond h0 hs h).of_done
  rw [hr]
  simp only [Res.andThen]
  rw [checkLoop_normal ht.pend]
  unfold whileBody
  rw [if_neg (fun hh => (holds_ne i w t).1 hh (by rw [ht.status]; exact hv))]
  rw [inLoop_outside h0] at h2
  have hb := (h2 t false ht.pend ht.same.ctx ht.status ht.state).of_exit
  cases l with
  | nil =>
    rw [exec_lists] at hb
    simp [lists, fin] at hb
  | cons a l =>
    simp only
    rw [hb]
    exact LoopRel.exit _ _

theorem does_while {r : List Redir} {w : Bool} {i l : List AndOr} {S : St σ} {fe : Bool} {o : Out σ ω} (hs : Start S)
    (h : Does E (ctxOf S) (.loop w i l 0) S.status S.sh o) :
    Rel E fe S (exec E (.nonsimple (.whiles r w i l) fe) S) o := by
  rw [exec_nonsimple]
  have hr := looprel_fin (h { S with loopnest := S.loopnest + 1, breakloopnest := S.loopnest + 1 } (by simp)
    ⟨hs.1, Nat.le_refl _⟩ rfl rfl rfl)
  have e : nonsimple E (exec E) (.whiles r w i l) fe S =
      ((exec E (.whileLoop w i l 0)
        { S with loopnest := S.loopnest + 1, breakloopnest := S.loopnest + 1 }).andThen fun t => fin E false (outside t)).andThen
        (fin E fe) := by
    change (exec E (.whileLoop w i l 0) _).andThen _ = _
    cases exec E (.whileLoop w i l 0) { S with loopnest := S.loopnest + 1, breakloopnest := S.loopnest + 1 } <;> rfl
  rw [e]
  exact hr.fin

/-! ## `case` -/

theorem matches_unique {v : Str} {st : Nat} {ps : List Word} {s s' : σ} {r : Option Bool} (h : Matches E v st ps s s' r) :
    matchAny E v st ps s = (s', r) := by
  induction h with
  | nil s => rfl
  | error p ps s s' he => simp only [matchAny, he]
  | found p ps s s' he => simp only [matchAny, he]
  | next p ps s s' s'' r he _ ih => simp only [matchAny, he]; exact ih

theorem selects_unique {v : Str} {st : Nat} {items : List CaseItem} {s s' : σ} {r : Option (Option (List AndOr))}
    (h : Selects E v st items s s' r) : ∃ f, findItem E v st items s = (s', f) ∧ f.spec = r := by
  induction h with
  | nil s => exact ⟨_, rfl, rfl⟩
  | error ps b items s s' hm => exact ⟨.fail, by simp only [findItem, matches_unique hm], rfl⟩
  | found ps b items s s' hm => exact ⟨.body b, by simp only [findItem, matches_unique hm], rfl⟩
  | next ps b items s s' s'' r hm _ ih =>
    obtain ⟨f, hf, hs⟩ := ih
    exact ⟨f, by simp only [findItem, matches_unique hm]; exact hf, hs⟩

theorem does_case_word_error {r : List Redir} {w : Word} {items : List CaseItem} {S : St σ} {fe : Bool} {s' : σ} (hs : Start S)
    (he : E.expandOne w S.status S.sh = (s', none)) :
    Rel E fe S (exec E (.nonsimple (.cases r w items) fe) S) (checked E (ctxOf S) .normal 2 s') := by
  rw [exec_nonsimple]
  simp only [nonsimple, execCase]
  rw [he]
  exact (applyErr_checked (sig := .normal) (s := S) (t := { S with status := Exit_EXPERROR, sh := s' }) ⟨rfl, rfl, rfl, rfl⟩ hs).fin

theorem does_case {r : List Redir} {w : Word} {items : List CaseItem} {S : St σ} {fe : Bool} {s' s'' : σ} {v : Str}
    {x : Option (Option (List AndOr))} {o : Out σ ω} (hs : Start S)
    (he : E.expandOne w S.status S.sh = (s', some v)) (hsel : Selects E v S.status items s' s'' x)
    (h1 : x = none → o = checked E (ctxOf S) .normal 2 s'')
    (h2 : x = some none ∨ x = some (some []) → o = .done .normal 0 s'')
    (h3 : ∀ l, l ≠ [] → x = some (some l) → Does E (ctxOf S) (.list l) S.status s'' o) :
    Rel E fe S (exec E (.nonsimple (.cases r w items) fe) S) o := by
  rw [exec_nonsimple]
  simp only [nonsimple, execCase]
  rw [he]
  simp only
  obtain ⟨f, hf, hx⟩ := selects_unique hsel
  rw [hf]
  match f, hx with
  | .fail, hx =>
    rw [h1 hx.symm]
    exact (applyErr_checked (sig := .normal) (s := S) (t := { S with status := Exit_EXPERROR, sh := s'' })
      ⟨rfl, rfl, rfl, rfl⟩ hs).fin
  | .nothing, hx =>
    rw [h2 (.inl hx.symm)]
    exact rel_fin (t := { S with status := Exit_SUCCESS, sh := s'' }) ⟨rfl, rfl, rfl, rfl⟩ hs
  | .body [], hx =>
    rw [h2 (.inr hx.symm)]
    exact rel_fin (t := { S with status := Exit_SUCCESS, sh := s'' }) ⟨rfl, rfl, rfl, rfl⟩ hs
  | .body (a :: l), hx =>
    exact (h3 (a :: l) (by simp) hx.symm { S with sh := s'' } fe hs rfl rfl rfl).with_sh.fin'

/-! ## Scripts -/

theorem exec_parse_eq {inp : ι} {executed fe : Bool} {S : St σ} (hs : Start S) {s' : σ} {p : Parsed ι}
    (he : E.parse inp S.sh = (s', p)) :
    exec E (.parse inp executed fe) S =
      match (s', p) with
      | (sh, .ok [] rest _) => exec E (.parse rest executed fe) { S with sh := sh }
      | (sh, .ok (a :: l) rest atEof) =>
        if E.executes sh then
          (exec E (.lists (a :: l) (fe && atEof)) { S with sh := sh }).andThen (exec E (.parse rest true fe))
        else exec E (.parse rest executed fe) { S with sh := sh }
      | (sh, .eof) => fin E fe { S with status := if executed then S.status else Exit_SUCCESS, sh := sh }
      | (sh, .syntaxError) =>
        if E.syntaxErrorExits sh then exitWith E Exit_SYNERROR { S with sh := sh }
        else fin E fe { S with status := Exit_SYNERROR, sh := sh }
      | (sh, .inputError) => fin E fe { S with status := Exit_ERROR, sh := sh } := by
  rw [exec_parse]
  unfold parse
  rw [hs.needBreak, he]
  rfl

theorem does_script_cons (hE : Lawful E) {inp rest : ι} {l : List AndOr} {atEof executed fe : Bool} {S : St σ} {s' : σ}
    {o o' : Out σ ω} (hs : Start S) (he : E.parse inp S.sh = (s', .ok l rest atEof)) (hl : l ≠ []) (hx : E.executes s' = true)
    (h : Does E (ctxOf S) (.list l) S.status s' o)
    (hgo : ∀ st' s'', o = .done .normal st' s'' → Does E (ctxOf S) (.script rest true) st' s'' o')
    (hstop : ¬ o.goesOn → o' = o) :
    Rel E fe S (exec E (.parse inp executed fe) S) o' := by
  obtain ⟨a, l, rfl⟩ := List.exists_cons_of_ne_nil hl
  rw [exec_parse_eq hs he]
  simp only [hx, if_true]
  have hr := (h { S with sh := s' } (fe && atEof) hs rfl rfl rfl).with_sh
  cases hfe : (fe && atEof)
  · rw [hfe] at hr
    rcases hr.cases_false with ⟨st, w, hre, rfl⟩ | ⟨t, sig, hre, rfl, hsm, hp⟩
    · rw [hre, hstop goesOn_exit]; exact Rel.exit _ _
    · rw [hre]
      simp only [Res.andThen]
      by_cases hsig : sig = .normal
      · subst hsig
        exact (hgo _ _ rfl t fe hp hsm.ctx rfl rfl).same hsm
      · rw [hstop (fun hh => hsig (goesOn_done.1 hh)), exec_parse]
        unfold parse
        rw [(Same.signal hp).2 hsig]
        exact rel_fin hsm hp
  · rw [hfe] at hr
    obtain ⟨st, w, hre, hf⟩ := hr.cases_true
    simp only [Bool.and_eq_true] at hfe
    obtain ⟨rfl, rfl⟩ := hfe
    rw [hre]
    simp only [Res.andThen, Rel, if_true]
    by_cases hg : o.goesOn
    · cases o with
      | exit st' w' => exact absurd hg goesOn_exit
      | done sig st' sh' =>
        have := goesOn_done.1 hg
        subst this
        obtain ⟨t', h1, h2⟩ := hE.eof _ _ _ _ _ he sh'
        have hd := hgo _ _ rfl { S with status := st', sh := sh' } true hs rfl rfl rfl
        rw [exec_parse_eq (S := { S with status := st', sh := sh' }) hs h1] at hd
        have : o'.finish E = (st' % 256, E.final t') := by
          simpa [fin, exitWith, Rel] using hd
        rw [this, h2, ← hf]
        rfl
    · rw [hstop hg]; exact hf

/-! ## All together -/

/-- What the semantics says is what the functions do. -/
theorem complete (hE : Lawful E) {c : Ctx} {x : Node ι} {st : Nat} {s : σ} {o : Out σ ω}
    (h : Sem E (fun _ => 0) c x st s o) : Does E c x st s o := by
  induction h with
  | list_nil => rintro S fe hs rfl rfl rfl; rw [exec_lists]; exact rel_fin (Same.refl S) hs
  | list_cons c a l st st' s s' o h1 h2 ih1 ih2 =>
    rintro S fe hs rfl rfl rfl
    refine does_list_go hs ih1 ih2 ?_
    rintro rfl
    cases h2
    rfl
  | list_stop c a l st s o h1 h2 ih =>
    rintro S fe hs rfl rfl rfl
    exact does_list_stop hs ih h2
  | item_sync c ps st s o h ih => exact ih
  | item_async c ps st st' s s' he hp =>
    rintro S fe hs rfl rfl rfl
    rw [execAsync_other he hp]
    exact rel_fin (t := { S with status := st', sh := s' }) ⟨rfl, rfl, rfl, rfl⟩ hs
  | item_async_one c x cond st st' s s' he hb =>
    rintro S fe hs rfl rfl rfl
    rw [execAsync_one he]
    have : errConditionFor [x] = false := by
      rw [← Bool.not_eq_true]
      exact fun e => hb ((errCondition_basic x).1 e)
    rw [this, applyErr_false]
    exact rel_fin (t := { S with status := st', sh := s' }) ⟨rfl, rfl, rfl, rfl⟩ hs
  | item_async_checked c cs cond st st' s s' he hb =>
    rintro S fe hs rfl rfl rfl
    rw [execAsync_one he]
    have : errConditionFor cs = true := by
      unfold errConditionFor
      split
      · exact (errCondition_basic _).2 (hb _ rfl)
      · rfl
    rw [this]
    exact (applyErr_checked (sig := .normal) (s := S) (t := { S with status := st', sh := s' }) ⟨rfl, rfl, rfl, rfl⟩ hs).fin
  | chain_nil => rintro S fe hs rfl rfl rfl; rw [exec_pipes]; exact rel_fin (Same.refl S) hs
  | chain_last c p st s o h ih => exact ih
  | chain_cons c p ps st st' s s' o hps h1 h2 ih1 ih2 => rintro S fe hs rfl rfl rfl; exact does_chain_cons hs hps ih1 ih2
  | chain_stop c p ps st s o hps h1 hg ih => rintro S fe hs rfl rfl rfl; exact does_chain_stop hs hps ih hg
  | behind_nil => rintro S fe hs rfl rfl rfl; rw [exec_pipes]; exact rel_fin (Same.refl S) hs
  | and_run c cs neg ps s o h ih =>
    rintro S fe hs rfl h0 rfl
    rw [exec_behind_run _ _ _ _ _ _ (by simp [h0, Exit_SUCCESS])]
    exact ih S fe hs rfl h0 rfl
  | and_skip c cs neg ps st s o h0 h ih =>
    rintro S fe hs rfl rfl rfl
    rw [exec_behind_skip _ _ _ _ _ _ (by simp [h0, Exit_SUCCESS])]
    exact ih S fe hs rfl rfl rfl
  | or_run c cs neg ps st s o h0 h ih =>
    rintro S fe hs rfl rfl rfl
    rw [exec_behind_run _ _ _ _ _ _ (by simp [h0, Exit_SUCCESS])]
    exact ih S fe hs rfl rfl rfl
  | or_skip c cs neg ps s o h ih =>
    rintro S fe hs rfl h0 rfl
    rw [exec_behind_skip _ _ _ _ _ _ (by simp [h0, Exit_SUCCESS])]
    exact ih S fe hs rfl h0 rfl
  | pipeline c cs cond st s o h ih => rintro S fe hs rfl rfl rfl; exact does_pipeline hs ih
  | negated c cs cond st st' s s' h ih => rintro S fe hs rfl rfl rfl; exact does_negated hs ih
  | negated_stop c cs cond st s o h hg ih =>
    rintro S fe hs rfl rfl rfl
    have := does_negated (cond := cond) (fe := fe) hs ih
    have e : negOut o = o := by
      unfold negOut
      split
      · exact absurd (goesOn_done.2 rfl) hg
      · rfl
    rw [e] at this
    exact this
  | cmds_basic c x st s o hb h ih =>
    rintro S fe hs rfl rfl rfl
    have := does_single (fe := fe) hs ih
    rw [if_pos ((errCondition_basic x).2 hb)] at this
    exact this
  | cmds_compound c x st s o hb h ih =>
    rintro S fe hs rfl rfl rfl
    have := does_single (fe := fe) hs ih
    rw [if_neg (fun e => hb ((errCondition_basic x).1 e))] at this
    exact this
  | cmds_many c cs st st' s os hl h2 h hst ih => rintro S fe hs rfl rfl rfl; exact does_many hE hs hl h2 ih hst
  | compound c x st s s' saved o hx he h ih => rintro S fe hs rfl rfl rfl; exact does_compound hE hs hx he ih
  | compound_redir c x st s s' saved hx he => rintro S fe hs rfl rfl rfl; exact does_compound_redir hs hx he
  | group c r l st s o h ih => rintro S fe hs rfl rfl rfl; rw [exec_nonsimple]; exact ih S fe hs rfl rfl rfl
  | subshell c r l st s o h ih => rintro S fe hs rfl rfl rfl; exact does_subshell hE hs ih
  | bracket c r e st st' s s' he =>
    rintro S fe hs rfl rfl rfl
    rw [exec_nonsimple]
    have hexp : nonsimple E (exec E) (.bracket r e) fe S =
      match E.bracket e S.status S.sh with
      | (sh, st) => fin E fe { S with status := st, sh := sh } := rfl
    rw [hexp, he]
    exact rel_fin (sig := .normal) (t := { S with status := st', sh := s' }) ⟨rfl, rfl, rfl, rfl⟩ hs
  | funcdef c r n x st s s' s'' name ok he hd =>
    rintro S fe hs rfl rfl rfl
    rw [exec_nonsimple]
    simp only [nonsimple, execFuncdef]
    rw [he]
    simp only
    rw [hd]
    cases ok
    · exact rel_fin (t := { S with status := Exit_ASSGNERR, sh := s'' }) ⟨rfl, rfl, rfl, rfl⟩ hs
    · exact rel_fin (t := { S with status := Exit_SUCCESS, sh := s'' }) ⟨rfl, rfl, rfl, rfl⟩ hs
  | funcdef_error c r n x st s s' he =>
    rintro S fe hs rfl rfl rfl
    rw [exec_nonsimple]
    simp only [nonsimple, execFuncdef]
    rw [he]
    exact rel_fin (t := { S with status := Exit_EXPERROR, sh := s' }) ⟨rfl, rfl, rfl, rfl⟩ hs
  | if_ c r cl st s o h ih => rintro S fe hs rfl rfl rfl; rw [exec_nonsimple]; exact ih S fe hs rfl rfl rfl
  | ifs_nil c st s =>
    rintro S fe hs rfl rfl rfl
    rw [exec_ifs]
    exact rel_fin (t := { S with status := Exit_SUCCESS }) ⟨rfl, rfl, rfl, rfl⟩ hs
  | ifs_else c l cl st s o h ih =>
    rintro S fe hs rfl rfl rfl
    rw [exec_ifs]
    simp only [ifs, hs.needBreak, Bool.false_eq_true, if_false]
    exact ih S fe hs rfl rfl rfl
  | ifs_then c i l cl st st' s s' o h1 hv h2 ih1 ih2 =>
    rintro S fe hs rfl rfl rfl
    exact does_ifs_normal hs ih1 (fun _ => ih2) (fun hh => absurd hv hh)
  | ifs_next c i l cl st st' s s' o h1 hv h2 ih1 ih2 =>
    rintro S fe hs rfl rfl rfl
    exact does_ifs_normal hs ih1 (fun hh => absurd hh hv) (fun _ => ih2)
  | ifs_signal c i l cl sig st st' s s' h hsig ih => rintro S fe hs rfl rfl rfl; exact does_ifs_signal hs ih hsig
  | ifs_exit c i l cl st st' s w h ih =>
    rintro S fe hs rfl rfl rfl
    rw [exec_ifs_cond i l cl fe hs, (does_cond hs ih).of_exit]
    exact Rel.exit _ _
  | for_error c r n ws l st s s' he =>
    rintro S fe hs rfl rfl rfl
    rw [exec_nonsimple]
    simp only [nonsimple]
    rw [execFor_eq]
    simp only
    rw [he]
    exact does_for_error hs
  | for_words c r n ws l st s s' vs o he hv h ih =>
    rintro S fe hs rfl rfl rfl
    rw [exec_nonsimple]
    simp only [nonsimple]
    rw [execFor_eq]
    simp only
    rw [he]
    exact does_for_words hs hv ih
  | for_none c r n ws l st s s' he =>
    rintro S fe hs rfl rfl rfl
    rw [exec_nonsimple]
    simp only [nonsimple]
    rw [execFor_eq]
    simp only
    rw [he]
    exact does_for_none hs
  | for_positional c r n l st s o hv h ih =>
    rintro S fe hs rfl rfl rfl
    rw [exec_nonsimple]
    simp only [nonsimple]
    rw [execFor_eq]
    exact does_for_words hs hv ih
  | for_no_positional c r n l st s hv =>
    rintro S fe hs rfl rfl rfl
    rw [exec_nonsimple]
    simp only [nonsimple]
    rw [execFor_eq]
    simp only
    rw [hv]
    exact does_for_none hs
  | words_nil c n l st s =>
    rintro S fe h0 hs rfl rfl rfl
    rw [exec_forLoop]
    exact ⟨.normal, rfl, h0, Same.refl _, hs.1, by have := hs.2; simp only [outside]; omega⟩
  | words_error c n v vs l st s s' he hi => rintro S fe h0 hs rfl rfl rfl; exact does_words_error h0 hs he hi
  | words_fatal c n v vs l st s s' he hi => rintro S fe h0 hs rfl rfl rfl; exact does_words_fatal he hi
  | words_again c n v vs l sig st st' s s' s'' o he h1 ha h2 ih1 ih2 =>
    rintro S fe h0 hs rfl rfl rfl
    refine does_words h0 hs he ih1 (fun _ => ih2) (fun _ e => ?_) (fun hh => absurd ha hh)
    subst e
    cases h2
    rfl
  | words_leave c n v vs l sig st st' s s' s'' he h1 ha ih1 =>
    rintro S fe h0 hs rfl rfl rfl
    exact does_words h0 hs he ih1 (fun hh => absurd hh ha) (fun hh => absurd hh ha) (fun _ => rfl)
  | words_exit c n v vs l st st' s s' w he h ih => rintro S fe h0 hs rfl rfl rfl; exact does_words_exit h0 hs he ih
  | while_ c r w i l st s o h ih => rintro S fe hs rfl rfl rfl; exact does_while hs ih
  | loop_end c w i l last st st' s s' h hv ih => rintro S h0 hs rfl rfl rfl; exact does_loop_end h0 hs ih hv
  | loop_cond_again c w i l last st st' s s' o h1 h2 ih1 ih2 =>
    rintro S h0 hs rfl rfl rfl; exact does_loop_cond_again h0 hs ih1 ih2
  | loop_cond_leave c w i l last sig st st' s s' h ha ih => rintro S h0 hs rfl rfl rfl; exact does_loop_cond_leave h0 hs ih ha
  | loop_cond_exit c w i l last st st' s x h ih => rintro S h0 hs rfl rfl rfl; exact does_loop_cond_exit h0 hs ih
  | loop_again c w i l last sig st st' st'' s s' s'' o h1 hv h2 ha h3 ih1 ih2 ih3 =>
    rintro S h0 hs rfl rfl rfl
    exact does_loop_body h0 hs ih1 hv ih2 (fun _ => ih3) (fun hh => absurd ha hh)
  | loop_leave c w i l last sig st st' st'' s s' s'' h1 hv h2 ha ih1 ih2 =>
    rintro S h0 hs rfl rfl rfl
    exact does_loop_body h0 hs ih1 hv ih2 (fun hh => absurd hh ha) (fun _ => rfl)
  | loop_exit c w i l last st st' st'' s s' x h1 hv h2 ih1 ih2 =>
    rintro S h0 hs rfl rfl rfl; exact does_loop_exit h0 hs ih1 hv ih2
  | case_word_error c r w items st s s' he => rintro S fe hs rfl rfl rfl; exact does_case_word_error hs he
  | case_error c r w items st s s' s'' v he hsel =>
    rintro S fe hs rfl rfl rfl
    exact does_case hs he hsel (fun _ => rfl) (fun h => by rcases h with h | h <;> cases h) (fun l _ h => by cases h)
  | case_none c r w items st s s' s'' v he hsel =>
    rintro S fe hs rfl rfl rfl
    exact does_case hs he hsel (fun h => by cases h) (fun _ => rfl) (fun l _ h => by cases h)
  | case_empty c r w items st s s' s'' v he hsel =>
    rintro S fe hs rfl rfl rfl
    exact does_case hs he hsel (fun h => by cases h) (fun _ => rfl) (fun l hl h => by cases h; exact absurd rfl hl)
  | case_item c r w items st s s' s'' v l o he hsel hl h ih =>
    rintro S fe hs rfl rfl rfl
    exact does_case hs he hsel (fun h => by cases h)
      (fun h => by rcases h with h | h <;> cases h; exact absurd rfl hl) (fun l' _ h => by cases h; exact ih)
  | words_fail c r a w st s s' he =>
    rintro S fe hs rfl rfl rfl
    apply does_simple
    unfold simple
    rw [he]
    exact rel_fin (t := { S with status := Exit_EXPERROR, sh := s' }) ⟨rfl, rfl, rfl, rfl⟩ hs
  | bare_error c r a w st s s' s'' he ha =>
    rintro S fe hs rfl rfl rfl
    apply does_simple
    rw [simple_bare he]
    exact does_bare_error hs ha
  | bare c a w st s s' s'' he ha =>
    rintro S fe hs rfl rfl rfl
    apply does_simple
    rw [simple_bare he]
    unfold withoutWords
    simp only
    rw [ha]
    exact rel_fin (t := { S with status := E.substStatus s'', sh := s'' }) ⟨rfl, rfl, rfl, rfl⟩ hs
  | bare_redir c r a w st s s' s'' t saved ok he ha hr hx =>
    rintro S fe hs rfl rfl rfl
    apply does_simple
    rw [simple_bare he]
    exact does_bare_redir hs ha hr hx
  | redir_error c r a w st s s' s'' name args saved he hr hf =>
    rintro S fe hs rfl rfl rfl
    apply does_simple
    rw [simple_words he]
    have := does_redir_fail (a := a) (fe := fe) (name := name) (args := args) (S := { S with sh := s' }) hs hr
    rw [if_neg hf] at this
    exact this.with_sh
  | redir_fatal c r a w st s s' s'' name args saved he hr h1 h2 h3 =>
    rintro S fe hs rfl rfl rfl
    apply does_simple
    rw [simple_words he]
    have := does_redir_fail (a := a) (fe := fe) (name := name) (args := args) (S := { S with sh := s' }) hs hr
    rw [if_pos ⟨h1, h2, h3⟩] at this
    exact this.with_sh
  | assign_error c r a w st s s' s'' t name args saved temp he hr ht ha hi =>
    rintro S fe hs rfl rfl rfl
    apply does_simple
    rw [simple_words he]
    have := does_assign_fail (fe := fe) (name := name) (args := args) (S := { S with sh := s' }) hs hr ht ha
    rw [if_pos hi] at this
    exact this.with_sh
  | assign_fatal c r a w st s s' s'' t name args saved temp he hr ht ha hi =>
    rintro S fe hs rfl rfl rfl
    apply does_simple
    rw [simple_words he]
    have := does_assign_fail (fe := fe) (name := name) (args := args) (S := { S with sh := s' }) hs hr ht ha
    rw [if_neg (by rw [hi]; simp)] at this
    exact this.with_sh
  | handled c r a w st st' s s' s'' t u name args saved temp he hr ht ha hres =>
    rintro S fe hs rfl rfl rfl
    apply does_simple
    rw [simple_words he]
    exact (does_handled (fe := fe) (S := { S with sh := s' }) hs hr ht ha hres).with_sh
  | simple c r a w st st' s s' s'' t u name args saved temp k o he hr ht ha hres h ih =>
    rintro S fe hs rfl rfl rfl
    apply does_simple
    rw [simple_words he]
    exact (does_found (fe := fe) (S := { S with sh := s' }) hE hs hr ht ha hres ih).with_sh
  | run_none c argv st s =>
    rintro S fe hs rfl rfl rfl
    rw [exec_invoke]
    exact rel_fin (t := { S with status := Exit_NOTFOUND }) ⟨rfl, rfl, rfl, rfl⟩ hs
  | run_external c path argv st st' s w he =>
    rintro S fe hs rfl rfl rfl
    rw [exec_invoke]
    have hexp : invoke E (exec E) (.external path) argv fe S =
      match E.external path argv S.sh with
      | (st, w) => if fe then .exit st w else .ok { S with status := st, sh := E.join S.sh w } := rfl
    rw [hexp, he]
    cases fe
    · exact ⟨rfl, ⟨rfl, rfl, rfl, rfl⟩, hs, rfl, rfl⟩
    · simp [Rel, Out.finish, hE.join]
  | run_function c x argv st s o h ih =>
    rintro S fe hs rfl rfl rfl
    rw [exec_invoke]
    exact (ih S fe hs rfl rfl rfl).fin'
  | call c x args sig st st' s s' h ih => rintro S fe hs rfl rfl rfl; exact does_call hE hs ih
  | call_exit c x args st st' s w h ih => rintro S fe hs rfl rfl rfl; exact does_call hE hs ih
  | builtin c k argv st st' s s' hk he =>
    rintro S fe hs rfl rfl rfl
    apply does_builtin hk
    rw [callBuiltin_eq he]
    exact ⟨rfl, ⟨rfl, rfl, rfl, rfl⟩, hs, rfl, rfl⟩
  | break_ c k argv n st s s' hk he hl =>
    rintro S fe hs rfl rfl rfl
    apply does_builtin hk
    rw [callBuiltin_eq he]
    have hn : n ≠ 0 := by intro e; subst e; exact hE.brk _ _ _ _ he
    have h0 : S.loopnest ≠ 0 := hl
    simp only [actRun, breakBuiltin, beq_iff_eq, h0, if_false, Bool.not_false, if_true]
    refine ⟨rfl, ⟨rfl, rfl, rfl, rfl⟩, ⟨hs.1, ?_, ?_, rfl⟩, rfl, rfl⟩
    · simp only [ctxOf]; omega
    · simp only [ctxOf]; split <;> omega
  | continue_ c k argv n st s s' hk he hl =>
    rintro S fe hs rfl rfl rfl
    apply does_builtin hk
    rw [callBuiltin_eq he]
    have hn : n ≠ 0 := by intro e; subst e; exact hE.cont _ _ _ _ he
    have h0 : S.loopnest ≠ 0 := hl
    simp only [actRun, breakBuiltin, beq_iff_eq, h0, if_false, Bool.not_true, Bool.false_eq_true]
    refine ⟨rfl, ⟨rfl, rfl, rfl, rfl⟩, ⟨rfl, ?_, ?_, ?_, rfl⟩, rfl, rfl⟩
    · simp only [ctxOf]; omega
    · simp only [ctxOf]; omega
    · simp only [ctxOf]; split <;> omega
  | no_loop c k argv act n st s s' hk ha he hl =>
    rintro S fe hs rfl rfl rfl
    apply does_builtin hk
    rw [callBuiltin_eq he]
    have h0 : S.loopnest = 0 := hl
    rcases ha with rfl | rfl
    · simp only [actRun, breakBuiltin, h0, beq_self_eq_true, if_true]
      cases E.fatal s'
      · exact ⟨rfl, ⟨h0.symm, rfl, rfl, rfl⟩, ⟨hs.1, Nat.zero_le _⟩, rfl, rfl⟩
      · exact Rel.exit _ _
    · simp only [actRun, breakBuiltin, h0, beq_self_eq_true, if_true]
      cases E.fatal s'
      · exact ⟨rfl, ⟨h0.symm, rfl, rfl, rfl⟩, ⟨hs.1, Nat.zero_le _⟩, rfl, rfl⟩
      · exact Rel.exit _ _
  | return_ c k argv st st' s s' hk he hi =>
    rintro S fe hs rfl rfl rfl
    apply does_builtin hk
    rw [callBuiltin_eq he]
    simp only [actRun, returnBuiltin]
    rw [if_neg (by simpa [ctxOf] using hi)]
    exact ⟨rfl, ⟨rfl, rfl, rfl, rfl⟩, ⟨rfl, hs.2⟩, rfl, rfl⟩
  | return_error c k argv st st' s s' hk he h1 h2 =>
    rintro S fe hs rfl rfl rfl
    apply does_builtin hk
    rw [callBuiltin_eq he]
    simp only [ctxOf] at h1
    simp only [actRun, returnBuiltin, h1, h2, Bool.and_self, if_true]
    exact ⟨rfl, ⟨rfl, h1.symm, rfl, rfl⟩, hs, rfl, rfl⟩
  | exit_ c k argv st st' s s' hk he =>
    rintro S fe hs rfl rfl rfl
    apply does_builtin hk
    rw [callBuiltin_eq he]
    exact Rel.exit _ _
  | eval c k argv code st s s' o hk he h ih =>
    rintro S fe hs rfl rfl rfl
    apply does_builtin hk
    rw [callBuiltin_eq he]
    exact (ih { S with sh := s' } false hs rfl rfl rfl).with_sh
  | dot c k argv code sig st st' s s' s'' hk he h ih =>
    rintro S fe hs rfl rfl rfl
    apply does_builtin hk
    rw [callBuiltin_eq he]
    exact does_dot (args := none) hs ih
  | dot_args c k argv args code sig st st' s s' s'' hk he h ih =>
    rintro S fe hs rfl rfl rfl
    apply does_builtin hk
    rw [callBuiltin_eq he]
    exact does_dot (args := some args) hs ih
  | dot_exit c k argv args code st st' s s' w hk he h ih =>
    rintro S fe hs rfl rfl rfl
    apply does_builtin hk
    rw [callBuiltin_eq he]
    exact does_dot (args := args) hs (by cases args <;> exact ih)
  | run_command c k k' argv argv' st s s' o hk he h ih =>
    rintro S fe hs rfl rfl rfl
    apply does_builtin hk
    rw [callBuiltin_eq he]
    exact (ih { S with sh := s' } false hs rfl rfl rfl).with_sh
  | script_blank c inp rest atEof executed st s s' o he h ih =>
    rintro S fe hs rfl rfl rfl
    rw [exec_parse_eq hs he]
    exact (ih { S with sh := s' } fe hs rfl rfl rfl).with_sh
  | script_noexec c inp rest l atEof executed st s s' o he hl hx h ih =>
    rintro S fe hs rfl rfl rfl
    obtain ⟨a, l, rfl⟩ := List.exists_cons_of_ne_nil hl
    rw [exec_parse_eq hs he]
    simp only [hx, Bool.false_eq_true, if_false]
    exact (ih { S with sh := s' } fe hs rfl rfl rfl).with_sh
  | script_cons c inp rest l atEof executed st st' s s' s'' o he hl hx h1 h2 ih1 ih2 =>
    rintro S fe hs rfl rfl rfl
    exact does_script_cons hE hs he hl hx ih1 (fun _ _ e => by cases e; exact ih2) (fun hg => absurd (goesOn_done.2 rfl) hg)
  | script_stop c inp rest l atEof executed st s s' o he hl hx h hg ih =>
    rintro S fe hs rfl rfl rfl
    exact does_script_cons hE hs he hl hx ih (fun _ _ e => absurd (by rw [e]; exact goesOn_done.2 rfl) hg) (fun _ => rfl)
  | script_eof c inp executed st s s' he =>
    rintro S fe hs rfl rfl rfl
    rw [exec_parse_eq hs he]
    exact rel_fin (t := { S with status := if executed then S.status else Exit_SUCCESS, sh := s' }) ⟨rfl, rfl, rfl, rfl⟩ hs
  | script_syntax c inp executed st s s' he =>
    rintro S fe hs rfl rfl rfl
    rw [exec_parse_eq hs he]
    simp only
    cases E.syntaxErrorExits s'
    · exact rel_fin (t := { S with status := Exit_SYNERROR, sh := s' }) ⟨rfl, rfl, rfl, rfl⟩ hs
    · exact Rel.exit _ _
  | script_input c inp executed st s s' he =>
    rintro S fe hs rfl rfl rfl
    rw [exec_parse_eq hs he]
    exact rel_fin (t := { S with status := Exit_ERROR, sh := s' }) ⟨rfl, rfl, rfl, rfl⟩ hs

end Yash.Exec
