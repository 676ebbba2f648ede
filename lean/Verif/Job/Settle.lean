import Verif.Job.Lookup
/-!
# Commands that settle the current job; new jobs
-/
set_option autoImplicit false

namespace Yash.Job

open Spec

theorem continueJob_settles {o : Opts} {fg killed : Bool} {ws : List Wake} {n : Nat} {s t : State} {st : Nat} {es : List Error}
    (hi : Idle s) (h : continueJob o fg killed ws n s = some (st, es, t)) : Idle t ∧ Discipline t := by
  refine ⟨idle_closed.continueJob h hi, ?_⟩
  simp only [continueJob] at h
  split at h
  · cases h
  · rename_i j hj
    rw [getJob_eq] at hj
    have h0 : Idle (if (j.status != .done && killed) = true then setJob s n { j with status := .running } else s) := by
      split
      · exact idle_setJob hi (Idle.ne_zero hi hj)
      · exact hi
    generalize (if (j.status != .done && killed) = true then setJob s n { j with status := .running } else s) = u at h h0
    split at h
    · cases h1 : waitForJob o n true false false ws u with
      | none => rw [h1] at h; cases h
      | some p =>
        rw [h1] at h
        have h2 : Idle p.2 := idle_closed.waitForJob (fun h => by cases h) h1 h0
        simp only [Option.bind_eq_bind, Option.bind_some] at h
        cases h3 : getJob p.2 n with
        | none => rw [h3] at h; cases h
        | some j' =>
          rw [h3] at h
          simp only [Option.bind_some] at h
          cases hst : j'.status with
          | running => rw [hst] at h; cases h
          | stopped =>
            rw [hst] at h
            cases he : j'.exitStatus o.pipefail with
            | none => rw [he] at h; cases h
            | some x =>
              rw [he] at h
              cases h
              exact setCurrent_discipline (Idle.zero h2) _
          | done =>
            rw [hst] at h
            cases he : j'.exitStatus o.pipefail with
            | none => rw [he] at h; cases h
            | some x =>
              rw [he] at h
              simp only [Option.bind_some] at h
              cases hr : removeJob p.2 n with
              | none => rw [hr] at h; cases h
              | some v =>
                rw [hr] at h
                cases h
                exact removeJob_discipline hr (.inr (Idle.zero h2))
    · simp only [Option.bind_eq_bind] at h
      cases h3 : getJob (setCurrent u (if o.curbg then n else u.current)) n with
      | none => rw [h3] at h; cases h
      | some j' =>
        rw [h3] at h
        cases h
        exact setCurrent_discipline (Idle.zero h0) _

theorem fgOperands_settles {o : Opts} {fg : Bool} : ∀ (as : List (List Char × Bool × List Wake)) (st : Nat) (s t : State) (st' : Nat),
    Idle s → (as ≠ [] ∨ Discipline s) → fgOperands o fg as st s = some (st', [], t) → Discipline t
  | [], st, s, t, st', _, hd, h => by
    simp only [fgOperands] at h
    cases h
    exact hd.elim (fun h => absurd rfl h) id
  | (a, killed, ws) :: as, st, s, t, st', hi, _, h => by
    simp only [fgOperands] at h
    split at h
    · cases h1 : fgOperands o fg as st s with
      | none => rw [h1] at h; cases h
      | some p => rw [h1] at h; cases h
    · split at h
      · cases h1 : fgOperands o fg as st s with
        | none => rw [h1] at h; cases h
        | some p => rw [h1] at h; cases h
      · rename_i n _
        cases h1 : continueJob o fg killed ws n s with
        | none => rw [h1] at h; cases h
        | some p =>
          rw [h1] at h
          simp only [Option.bind_eq_bind, Option.bind_some] at h
          have h3 := continueJob_settles hi h1
          cases h2 : fgOperands o fg as p.1 p.2.2 with
          | none => rw [h2] at h; cases h
          | some q =>
            obtain ⟨q1, q2, q3⟩ := q
            rw [h2] at h
            simp only [Option.bind_some, Option.some.injEq, Prod.mk.injEq, List.append_eq_nil_iff] at h
            obtain ⟨rfl, ⟨_, rfl⟩, rfl⟩ := h
            exact fgOperands_settles as _ _ _ _ h3.1 (.inr h3.2) h2

theorem disownOperands_settles {o : Opts} : ∀ (as : List (List Char)) (s t : State), Idle s → (as ≠ [] ∨ Discipline s) →
    disown.operands o as s = some ([], t) → Discipline t
  | [], s, t, _, hd, h => by
    simp only [disown.operands] at h
    cases h
    exact hd.elim (fun h => absurd rfl h) id
  | a :: as, s, t, hi, _, h => by
    simp only [disown.operands] at h
    split at h
    · cases h1 : disown.operands o as s with
      | none => rw [h1] at h; cases h
      | some p => rw [h1] at h; cases h
    · split at h
      · cases h1 : disown.operands o as s with
        | none => rw [h1] at h; cases h
        | some p => rw [h1] at h; cases h
      · rename_i n _ _
        cases h1 : removeJob s n with
        | none => rw [h1] at h; cases h
        | some u =>
          rw [h1] at h
          exact disownOperands_settles as u t (removeJob_idle h1 (.inr hi)) (.inr (removeJob_discipline h1 (.inr (Idle.zero hi)))) h

theorem removeAll_jobAt (s : State) (n : Nat) : jobAt (removeAll s) n = none := by
  show jobAt (trim _) n = none
  rw [jobAt_trim, jobAt_elem, elem]
  simp only [List.getElem?_map]
  cases s.jobs[n]? <;> rfl

theorem removeAll_discipline (s : State) : Discipline (removeAll s) := by
  have h : ∀ n, ¬Present (removeAll s) n := by
    rintro n ⟨j, hj⟩
    rw [removeAll_jobAt] at hj; cases hj
  refine ⟨fun ⟨n, hn⟩ => absurd hn (h n), fun _ => rfl, fun ⟨n, hn⟩ => absurd (stopped_present hn) (h n), fun ⟨n, _, hn⟩ => absurd hn (h n), fun _ => rfl,
    fun ⟨n, _, hn⟩ => absurd (stopped_present hn) (h n)⟩

theorem settles {o : Opts} {s t : State} (hi : Idle s) (h : Settles o s t) : Discipline t := by
  cases h with
  | prompt out h => exact (printAll_discipline h hi).2
  | jobs jo args out errors h => exact (jobsBuiltin_discipline h hi).2
  | async key cs h => exact (startAsync_ok h).2.1
  | foreground key cs ws status h => exact (runForeground_ok h).2.1
  | disown all args h =>
    simp only [disown] at h
    split at h
    · cases h; exact removeAll_discipline s
    · split at h
      · split at h
        · cases h
        · cases h1 : removeJob s s.current with
          | none => rw [h1] at h; cases h
          | some u =>
            rw [h1] at h
            cases h
            exact removeJob_discipline h1 (.inr (Idle.zero hi))
      · rename_i hne
        exact disownOperands_settles _ _ _ hi (.inl (by simpa using hne)) h
  | fg fg args killed ws status h =>
    simp only [fgBuiltin] at h
    split at h
    · rename_i hne
      cases h1 : fgOperands o fg args 0 s with
      | none => rw [h1] at h; cases h
      | some p =>
        obtain ⟨p1, p2, p3⟩ := p
        rw [h1] at h
        cases h
        exact fgOperands_settles _ _ _ _ _ hi (.inl (by simpa using hne)) h1
    · split at h
      · cases h
      · split at h
        · cases h
        · split at h
          · cases h
          · split at h
            · cases h
            · cases h1 : continueJob o fg killed ws s.current s with
              | none => rw [h1] at h; cases h
              | some p =>
                obtain ⟨p1, p2, p3⟩ := p
                rw [h1] at h
                cases h
                exact (continueJob_settles hi h1).2

/-! ## Waiting without traps removes no jobs -/

theorem sameJobs_setJob {s : State} {n : Nat} {j j' : Job} (hj : jobAt s n = some j) (h : SameJob j j') : SameJobs s (setJob s n j') := by
  constructor
  · intro m
    rw [jobAt_setJob (jobAt_lt hj)]
    split
    · rename_i hm
      subst hm
      simp [hj]
    · rfl
  · intro m i k hi hk
    rw [jobAt_setJob (jobAt_lt hj)] at hk
    split at hk
    · rename_i hm
      subst hm
      rw [hj] at hi
      cases hi; cases hk
      exact h
    · rw [hi] at hk
      cases hk
      exact SameJob.refl _

theorem sameJobs_of_jobs {s t : State} (h : t.jobs = s.jobs) : SameJobs s t := by
  constructor
  · intro n; rw [jobAt_congr h]
  · intro n j k hj hk
    rw [jobAt_congr h, hj] at hk
    cases hk
    exact SameJob.refl _

theorem printJob_same {s t : State} {n : Nat} {c : Bool} {rs : List Report} (h : printJob s n c false = some (rs, t)) : SameJobs s t := by
  unfold printJob at h
  split at h
  · cases h; exact SameJobs.refl s
  · rename_i j hj
    rw [getJob_eq] at hj
    split at h
    · cases h; exact SameJobs.refl s
    · cases hdesc : j.desc with
      | none => rw [hdesc] at h; cases h
      | some d =>
        rw [hdesc] at h
        simp only [Option.bind_eq_bind, Option.bind_some, Bool.false_and, Bool.false_eq_true, if_false] at h
        cases h
        exact sameJobs_setJob hj ⟨rfl, rfl, rfl, rfl⟩

theorem printLoop_same {pr : State → Nat → Option (List Report × State)} (hpr : ∀ s n rs t, pr s n = some (rs, t) → SameJobs s t) :
    ∀ (k i : Nat) (s t : State) (rs : List Report), printLoop pr k i s = some (rs, t) → SameJobs s t
  | 0, i, s, t, rs, h => by
    simp only [printLoop] at h
    cases h
    exact SameJobs.refl s
  | k + 1, i, s, t, rs, h => by
    simp only [printLoop] at h
    split at h
    · cases h1 : pr s i with
      | none => rw [h1] at h; cases h
      | some p =>
        rw [h1] at h
        simp only [Option.bind_eq_bind, Option.bind_some] at h
        cases h2 : printLoop pr k (i + 1) p.2 with
        | none => rw [h2] at h; cases h
        | some q =>
          rw [h2] at h
          cases h
          exact (hpr s i p.1 p.2 h1).trans (printLoop_same hpr k (i + 1) p.2 q.2 q.1 h2)
    · cases h
      exact SameJobs.refl s

theorem handleSigchld_same {o : Opts} {es : List Event} {s t : State} {rs : List Report} (h : handleSigchld o es s = some (rs, t)) : SameJobs s t := by
  simp only [handleSigchld] at h
  refine (doWait_same s es).trans ?_
  split at h
  · refine SameJobs.trans ?_ (printLoop_same (fun _ _ _ _ h => printJob_same h) _ _ _ _ _ h)
    exact sameJobs_of_jobs (applyCurstop_jobs _ _)
  · cases h; exact SameJobs.refl _

theorem waitForSigchld_same {o : Opts} {i : Bool} {w : Wake} {s t : State} {n : Nat} (h : waitForSigchld o i false w s = some (n, t)) : SameJobs s t := by
  simp only [waitForSigchld] at h
  have key : ∀ (m : Nat) (u : State), SameJobs s u → (do
      let n := if (i && w.sigint) = true then 2 else m
      let (_, s) ← handleSigchld o w.events u
      some (n, s)) = some (n, t) → SameJobs s t := by
    intro m u hu h
    simp only [Option.bind_eq_bind] at h
    cases h1 : handleSigchld o w.events u with
    | none => rw [h1] at h; cases h
    | some p =>
      rw [h1] at h
      cases h
      exact hu.trans (handleSigchld_same h1)
  cases ht : w.trap with
  | none => rw [ht] at h; exact key 0 s (SameJobs.refl s) h
  | some p => rw [ht] at h; exact key 0 s (SameJobs.refl s) h

theorem waitLoop_same {o : Opts} {n key : Nat} {rs i : Bool} : ∀ (ws : List Wake) (s t : State) (sig : Nat),
    waitLoop o n key rs i false ws s = some (sig, t) → SameJobs s t
  | ws, s, t, sig, h => by
    rw [waitLoop.eq_def] at h
    dsimp only at h
    split at h
    · cases h
    · split at h
      · cases h
      · split at h
        · cases h; exact SameJobs.refl s
        · split at h
          · cases h
          · rename_i w ws
            cases h1 : waitForSigchld o i false w s with
            | none => rw [h1] at h; cases h
            | some p =>
              rw [h1] at h
              simp only [Option.bind_eq_bind, Option.bind_some] at h
              have h2 : SameJobs s p.2 := waitForSigchld_same h1
              split at h
              · cases h; exact h2
              · exact h2.trans (waitLoop_same ws p.2 t sig h)

theorem waitForJob_same {o : Opts} {n : Nat} {rs i : Bool} {ws : List Wake} {s t : State} {sig : Nat} (h : waitForJob o n rs i false ws s = some (sig, t)) :
    SameJobs s t := by
  simp only [waitForJob] at h
  split at h
  · cases h
  · rename_i j hj
    rw [getJob_eq] at hj
    split at h
    · cases h; exact SameJobs.refl s
    · cases h1 : waitLoop o n j.key rs i false ws (setJob s n { j with nonotify := true }) with
      | none => rw [h1] at h; cases h
      | some p =>
        rw [h1] at h
        simp only [Option.bind_eq_bind, Option.bind_some] at h
        have h2 : SameJobs s p.2 := (sameJobs_setJob (j' := { j with nonotify := true }) hj ⟨rfl, rfl, rfl, rfl⟩).trans (waitLoop_same _ _ _ _ h1)
        split at h
        · cases h
        · rename_i j' hj'
          rw [getJob_eq] at hj'
          split at h
          · cases h
          · cases h
            exact h2.trans (sameJobs_setJob hj' ⟨rfl, rfl, rfl, rfl⟩)

/-! ## Which job becomes the current one -/

theorem fit_iff {s : State} {b : Bool} {n : Nat} : (!unfit s b n) = true ↔ Present s n ∧ (b = true → Stopped s n) := by
  rw [Bool.not_eq_true', unfit_iff]

theorem newCurrent_fit {s : State} {n : Nat} (hp : Present s n) (hs : (∃ m, Stopped s m) → Stopped s n) : newCurrent s n = n := by
  unfold newCurrent
  rw [if_pos]
  rw [fit_iff]
  refine ⟨hp, fun h => hs ?_⟩
  exact count_pos.1 (by simpa using h)

theorem newPrevious_old {s : State} {c : Nat} (hc : c ≠ s.current) (hp : Present s s.current) (hs : (∃ m k, m ≠ k ∧ Stopped s m ∧ Stopped s k) → Stopped s s.current) :
    newPrevious s c = s.current := by
  unfold newPrevious
  simp only [bne_iff_ne, ne_eq, hc, not_false_eq_true, if_true]
  rw [if_pos]
  rw [Bool.not_or, Bool.and_eq_true, fit_iff]
  refine ⟨⟨hp, fun h => hs ?_⟩, by simpa using fun h => hc h.symm⟩
  exact count_two.1 (by simpa using h)

end Yash.Job
