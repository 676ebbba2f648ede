import Verif.Job.Discipline
/-!
# What every sequence of commands keeps
-/
set_option autoImplicit false

namespace Yash.Job

open Spec

/-- A relation between states that all the elementary changes meet. -/
structure Closed (P : State → State → Prop) : Prop where
  refl : ∀ s, P s s
  trans : ∀ {s t u}, P s t → P t u → P s u
  cur : ∀ s n, P s (setCurrent s n)
  upd : ∀ {s n j j'}, jobAt s n = some j → j'.key = j.key → j'.pgid = j.pgid → j'.procs = j.procs → (j'.status = j.status ∨ j'.status = .running) → P s (setJob s n j')
  rem : ∀ {s t n}, removeJob s n = some t → P s t
  ev : ∀ s es, P s (doWait s es)
  all : ∀ s, P s (removeAll s)
  neg : ∀ s, P s (neglectAll s)

variable {P : State → State → Prop}

theorem Closed.curstop (hP : Closed P) : ∀ (l : List Nat) (s : State), P s (curstopLoop l s)
  | [], s => hP.refl s
  | n :: ns, s => by
    simp only [curstopLoop]
    split
    · split
      · exact hP.trans (hP.cur s n) (hP.curstop ns _)
      · exact hP.curstop ns s
    · exact hP.curstop ns s

theorem Closed.applyCurstop (hP : Closed P) (o : Opts) (s : State) : P s (applyCurstop o s) := by
  unfold Yash.Job.applyCurstop
  refine hP.trans ?_ (hP.cur _ _)
  split
  · exact hP.curstop _ _
  · exact hP.refl s

theorem Closed.printJob (hP : Closed P) {s t : State} {n : Nat} {c r : Bool} {rs : List Report} (h : printJob s n c r = some (rs, t)) : P s t := by
  unfold Yash.Job.printJob at h
  split at h
  · cases h; exact hP.refl s
  · rename_i j hj
    rw [getJob_eq] at hj
    split at h
    · cases h; exact hP.refl s
    · cases hdesc : j.desc with
      | none => rw [hdesc] at h; cases h
      | some d =>
        rw [hdesc] at h
        simp only [Option.bind_eq_bind, Option.bind_some] at h
        have h1 : P s (setJob s n { j with changed := false }) := hP.upd hj rfl rfl rfl (.inl rfl)
        split at h
        · cases hr : removeJob (setJob s n { j with changed := false }) n with
          | none => rw [hr] at h; cases h
          | some u =>
            rw [hr] at h
            cases h
            exact hP.trans h1 (hP.rem hr)
        · cases h
          exact h1

theorem Closed.jobsPrint (hP : Closed P) {jo : JobsOpts} {s t : State} {n : Nat} {rs : List Report} (h : jobsPrint jo s n = some (rs, t)) : P s t := by
  unfold Yash.Job.jobsPrint at h
  split at h
  · cases h; exact hP.refl s
  · split at h
    · cases h; exact hP.refl s
    · exact hP.printJob h

theorem Closed.printLoop (hP : Closed P) {pr : State → Nat → Option (List Report × State)} (hpr : ∀ s n rs t, pr s n = some (rs, t) → P s t) :
    ∀ (k i : Nat) (s t : State) (rs : List Report), printLoop pr k i s = some (rs, t) → P s t
  | 0, i, s, t, rs, h => by
    simp only [Yash.Job.printLoop] at h
    cases h
    exact hP.refl s
  | k + 1, i, s, t, rs, h => by
    simp only [Yash.Job.printLoop] at h
    split at h
    · cases h1 : pr s i with
      | none => rw [h1] at h; cases h
      | some p =>
        rw [h1] at h
        simp only [Option.bind_eq_bind, Option.bind_some] at h
        cases h2 : Yash.Job.printLoop pr k (i + 1) p.2 with
        | none => rw [h2] at h; cases h
        | some q =>
          rw [h2] at h
          cases h
          exact hP.trans (hpr s i p.1 p.2 h1) (hP.printLoop hpr k (i + 1) p.2 q.2 q.1 h2)
    · cases h
      exact hP.refl s

theorem Closed.printAll (hP : Closed P) {o : Opts} {s t : State} {rs : List Report} (h : printAll o s = some (rs, t)) : P s t :=
  hP.trans (hP.applyCurstop o s) (hP.printLoop (fun _ _ _ _ h => hP.printJob h) _ _ _ _ _ h)

theorem Closed.jobsOperands (hP : Closed P) {o : Opts} {jo : JobsOpts} : ∀ (as : List (List Char)) (s t : State) (rs : List Report) (es : List Error),
    jobsOperands o jo as s = some (rs, es, t) → P s t
  | [], s, t, rs, es, h => by
    simp only [Yash.Job.jobsOperands] at h
    cases h
    exact hP.refl s
  | a :: as, s, t, rs, es, h => by
    simp only [Yash.Job.jobsOperands] at h
    split at h
    · cases h1 : Yash.Job.jobsOperands o jo as s with
      | none => rw [h1] at h; cases h
      | some p =>
        rw [h1] at h
        cases h
        exact hP.jobsOperands as s _ _ _ h1
    · split at h
      · cases h1 : Yash.Job.jobsOperands o jo as s with
        | none => rw [h1] at h; cases h
        | some p =>
          rw [h1] at h
          cases h
          exact hP.jobsOperands as s _ _ _ h1
      · rename_i n _ _
        cases h1 : Yash.Job.jobsPrint jo s n with
        | none => rw [h1] at h; cases h
        | some p =>
          rw [h1] at h
          simp only [Option.bind_eq_bind, Option.bind_some] at h
          cases h2 : Yash.Job.jobsOperands o jo as p.2 with
          | none => rw [h2] at h; cases h
          | some q =>
            rw [h2] at h
            cases h
            exact hP.trans (hP.jobsPrint h1) (hP.jobsOperands as p.2 _ _ _ h2)

theorem Closed.jobsBuiltin (hP : Closed P) {o : Opts} {jo : JobsOpts} {args : List (List Char)} {s t : State} {rs : List Report} {es : List Error}
    (h : jobsBuiltin o jo args s = some (rs, es, t)) : P s t := by
  refine hP.trans (hP.applyCurstop o s) ?_
  simp only [Yash.Job.jobsBuiltin] at h
  split at h
  · cases h2 : Yash.Job.printLoop (Yash.Job.jobsPrint jo) (Yash.Job.applyCurstop o s).jobs.length 1 (Yash.Job.applyCurstop o s) with
    | none => rw [h2] at h; cases h
    | some p =>
      rw [h2] at h
      cases h
      exact hP.printLoop (fun _ _ _ _ h => hP.jobsPrint h) _ _ _ _ _ h2
  · exact hP.jobsOperands _ _ _ _ _ h

theorem Closed.handleSigchld (hP : Closed P) {o : Opts} {es : List Event} {s t : State} {rs : List Report} (h : handleSigchld o es s = some (rs, t)) : P s t := by
  simp only [Yash.Job.handleSigchld] at h
  refine hP.trans (hP.ev s es) ?_
  split at h
  · exact hP.printAll h
  · cases h; exact hP.refl _

/-- The actions of the traps meet the relation. -/
def TrapsIn (P : State → State → Prop) (ws : List Wake) : Prop := ∀ w ∈ ws, ∀ (n : Nat) (f : State → State), w.trap = some (n, f) → ∀ s, P s (f s)

theorem Closed.waitForSigchld (hP : Closed P) {o : Opts} {i r : Bool} {w : Wake} {s t : State} {n : Nat}
    (hw : r = true → ∀ (n : Nat) (f : State → State), w.trap = some (n, f) → ∀ s, P s (f s)) (h : waitForSigchld o i r w s = some (n, t)) : P s t := by
  simp only [Yash.Job.waitForSigchld] at h
  have key : ∀ (m : Nat) (u : State), P s u → (do
      let n := if (i && w.sigint) = true then 2 else m
      let (_, s) ← Yash.Job.handleSigchld o w.events u
      some (n, s)) = some (n, t) → P s t := by
    intro m u hu h
    simp only [Option.bind_eq_bind] at h
    cases h1 : Yash.Job.handleSigchld o w.events u with
    | none => rw [h1] at h; cases h
    | some p =>
      rw [h1] at h
      cases h
      exact hP.trans hu (hP.handleSigchld h1)
  cases ht : w.trap with
  | none => rw [ht] at h; exact key 0 s (hP.refl s) h
  | some p =>
    obtain ⟨m, f⟩ := p
    rw [ht] at h
    cases r with
    | false => exact key 0 s (hP.refl s) h
    | true => exact key m (f s) (hw rfl m f ht s) h

theorem Closed.waitLoop (hP : Closed P) {o : Opts} {n key : Nat} {rs i rt : Bool} : ∀ (ws : List Wake) (s t : State) (sig : Nat),
    (rt = true → TrapsIn P ws) → waitLoop o n key rs i rt ws s = some (sig, t) → P s t
  | ws, s, t, sig, hw, h => by
    rw [Yash.Job.waitLoop.eq_def] at h
    dsimp only at h
    split at h
    · cases h
    · split at h
      · cases h
      · split at h
        · cases h; exact hP.refl s
        · split at h
          · cases h
          · rename_i w ws
            cases h1 : Yash.Job.waitForSigchld o i rt w s with
            | none => rw [h1] at h; cases h
            | some p =>
              rw [h1] at h
              simp only [Option.bind_eq_bind, Option.bind_some] at h
              have h2 : P s p.2 := hP.waitForSigchld (fun hr => hw hr w (List.mem_cons_self ..)) h1
              split at h
              · cases h; exact h2
              · exact hP.trans h2 (hP.waitLoop ws p.2 t sig (fun hr w' hw' => hw hr w' (List.mem_cons_of_mem _ hw')) h)

theorem Closed.waitForJob (hP : Closed P) {o : Opts} {n : Nat} {rs i rt : Bool} {ws : List Wake} {s t : State} {sig : Nat}
    (hw : rt = true → TrapsIn P ws) (h : waitForJob o n rs i rt ws s = some (sig, t)) : P s t := by
  simp only [Yash.Job.waitForJob] at h
  split at h
  · cases h
  · rename_i j hj
    rw [getJob_eq] at hj
    split at h
    · cases h; exact hP.refl s
    · cases h1 : Yash.Job.waitLoop o n j.key rs i rt ws (setJob s n { j with nonotify := true }) with
      | none => rw [h1] at h; cases h
      | some p =>
        rw [h1] at h
        simp only [Option.bind_eq_bind, Option.bind_some] at h
        have h2 : P s p.2 := hP.trans (hP.upd (j' := { j with nonotify := true }) hj rfl rfl rfl (.inl rfl)) (hP.waitLoop _ _ _ _ hw h1)
        split at h
        · cases h
        · rename_i j' hj'
          rw [getJob_eq] at hj'
          split at h
          · cases h
          · cases h
            exact hP.trans h2 (hP.upd hj' rfl rfl rfl (.inl rfl))

theorem Closed.continueJob (hP : Closed P) {o : Opts} {fg killed : Bool} {ws : List Wake} {n : Nat} {s t : State} {st : Nat} {es : List Error}
    (h : continueJob o fg killed ws n s = some (st, es, t)) : P s t := by
  simp only [Yash.Job.continueJob] at h
  split at h
  · cases h
  · rename_i j hj
    rw [getJob_eq] at hj
    have h0 : P s (if (j.status != .done && killed) = true then setJob s n { j with status := .running } else s) := by
      split
      · exact hP.upd hj rfl rfl rfl (.inr rfl)
      · exact hP.refl s
    generalize (if (j.status != .done && killed) = true then setJob s n { j with status := .running } else s) = u at h h0
    split at h
    · cases h1 : Yash.Job.waitForJob o n true false false ws u with
      | none => rw [h1] at h; cases h
      | some p =>
        rw [h1] at h
        have h2 : P s p.2 := hP.trans h0 (hP.waitForJob (fun h => by cases h) h1)
        simp only [Option.bind_eq_bind, Option.bind_some] at h
        cases h3 : getJob p.2 n with
        | none => rw [h3] at h; cases h
        | some j' =>
          rw [h3] at h
          simp only [Option.bind_some] at h
          cases hst : j'.status with
          | running => rw [hst] at h; cases h
          | stopped =>
            rw [hst] at h
            cases he : j'.exitStatus o.pipefail with
            | none => rw [he] at h; cases h
            | some x =>
              rw [he] at h
              cases h
              exact hP.trans h2 (hP.cur _ _)
          | done =>
            rw [hst] at h
            cases he : j'.exitStatus o.pipefail with
            | none => rw [he] at h; cases h
            | some x =>
              rw [he] at h
              simp only [Option.bind_some] at h
              cases hr : removeJob p.2 n with
              | none => rw [hr] at h; cases h
              | some v =>
                rw [hr] at h
                cases h
                exact hP.trans h2 (hP.rem hr)
    · simp only [Option.bind_eq_bind] at h
      cases h3 : getJob (setCurrent u (if o.curbg then n else u.current)) n with
      | none => rw [h3] at h; cases h
      | some j' =>
        rw [h3] at h
        cases h
        exact hP.trans h0 (hP.cur _ _)

theorem Closed.fgOperands (hP : Closed P) {o : Opts} {fg : Bool} : ∀ (as : List (List Char × Bool × List Wake)) (st : Nat) (s t : State) (st' : Nat) (es : List Error),
    fgOperands o fg as st s = some (st', es, t) → P s t
  | [], st, s, t, st', es, h => by
    simp only [Yash.Job.fgOperands] at h
    cases h
    exact hP.refl s
  | (a, killed, ws) :: as, st, s, t, st', es, h => by
    simp only [Yash.Job.fgOperands] at h
    split at h
    · cases h1 : Yash.Job.fgOperands o fg as st s with
      | none => rw [h1] at h; cases h
      | some p =>
        rw [h1] at h
        cases h
        exact hP.fgOperands as st s _ _ _ h1
    · split at h
      · cases h1 : Yash.Job.fgOperands o fg as st s with
        | none => rw [h1] at h; cases h
        | some p =>
          rw [h1] at h
          cases h
          exact hP.fgOperands as st s _ _ _ h1
      · rename_i n _
        cases h1 : Yash.Job.continueJob o fg killed ws n s with
        | none => rw [h1] at h; cases h
        | some p =>
          rw [h1] at h
          simp only [Option.bind_eq_bind, Option.bind_some] at h
          cases h2 : Yash.Job.fgOperands o fg as p.1 p.2.2 with
          | none => rw [h2] at h; cases h
          | some q =>
            rw [h2] at h
            cases h
            exact hP.trans (hP.continueJob h1) (hP.fgOperands as _ _ _ _ _ h2)

theorem Closed.fgBuiltin (hP : Closed P) {o : Opts} {fg : Bool} {args : List (List Char × Bool × List Wake)} {killed : Bool} {ws : List Wake} {s t : State}
    {st : Nat} {es : List Error} (h : fgBuiltin o fg args killed ws s = some (st, es, t)) : P s t := by
  simp only [Yash.Job.fgBuiltin] at h
  split at h
  · cases h1 : Yash.Job.fgOperands o fg args 0 s with
    | none => rw [h1] at h; cases h
    | some p =>
      rw [h1] at h
      cases h
      exact hP.fgOperands _ _ _ _ _ _ h1
  · split at h
    · cases h; exact hP.refl s
    · split at h
      · cases h
      · split at h
        · cases h; exact hP.refl s
        · split at h
          · cases h; exact hP.refl s
          · cases h1 : Yash.Job.continueJob o fg killed ws s.current s with
            | none => rw [h1] at h; cases h
            | some p =>
              rw [h1] at h
              cases h
              exact hP.continueJob h1

theorem Closed.waitForSpec (hP : Closed P) {o : Opts} {ws : List Wake} {spec : List Char} {s t : State} {r : WaitResult} (hw : TrapsIn P ws)
    (h : waitForSpec o ws spec s = some (r, t)) : P s t := by
  simp only [Yash.Job.waitForSpec] at h
  split at h
  · cases h; exact hP.refl s
  · rename_i n _
    split at h
    · cases h; exact hP.refl s
    · split at h
      · cases h; exact hP.refl s
      · split at h
        · cases h; exact hP.refl s
        · split at h
          · cases h; exact hP.refl s
          · cases h1 : Yash.Job.waitForJob o n o.jobControl o.jobControl true ws s with
            | none => rw [h1] at h; cases h
            | some p =>
              rw [h1] at h
              simp only [Option.bind_eq_bind, Option.bind_some] at h
              have h2 : P s p.2 := hP.waitForJob (fun _ => hw) h1
              split at h
              · cases h; exact h2
              · cases h3 : getJob p.2 n with
                | none => rw [h3] at h; cases h
                | some j' =>
                  rw [h3] at h
                  simp only [Option.bind_some] at h
                  cases he : j'.exitStatus o.pipefail with
                  | none => rw [he] at h; cases h
                  | some x =>
                    rw [he] at h
                    simp only [Option.bind_some] at h
                    split at h
                    · cases h4 : Yash.Job.printJob p.2 n false true with
                      | none => rw [h4] at h; cases h
                      | some q =>
                        rw [h4] at h
                        cases h
                        exact hP.trans h2 (hP.printJob h4)
                    · split at h
                      · cases hr : removeJob p.2 n with
                        | none => rw [hr] at h; cases h
                        | some v =>
                          rw [hr] at h
                          cases h
                          exact hP.trans h2 (hP.rem hr)
                      · cases h; exact h2

theorem Closed.waitClean (hP : Closed P) {o : Opts} : ∀ (k i : Nat) (s t : State), waitClean o k i s = some t → P s t
  | 0, i, s, t, h => by
    simp only [Yash.Job.waitClean] at h
    cases h; exact hP.refl s
  | k + 1, i, s, t, h => by
    simp only [Yash.Job.waitClean] at h
    split at h
    · have key : ∀ (u : State), P s u → (match getJob u i with
          | some j => if (j.legacy || j.status == Status.done) = true then (removeJob u i).bind fun s' => Yash.Job.waitClean o k (i + 1) s'
            else (some u).bind fun s' => Yash.Job.waitClean o k (i + 1) s'
          | none => (some u).bind fun s' => Yash.Job.waitClean o k (i + 1) s') = some t → P s t := by
        intro u hu h
        split at h
        · split at h
          · cases h1 : removeJob u i with
            | none => rw [h1] at h; cases h
            | some v =>
              rw [h1] at h
              exact hP.trans (hP.trans hu (hP.rem h1)) (hP.waitClean k (i + 1) v t h)
          · exact hP.trans hu (hP.waitClean k (i + 1) u t h)
        · exact hP.trans hu (hP.waitClean k (i + 1) u t h)
      simp only [Option.bind_eq_bind] at h
      split at h
      · cases h1 : Yash.Job.printJob s i true false with
        | none => rw [h1] at h; cases h
        | some p =>
          rw [h1] at h
          exact key p.2 (hP.printJob h1) h
      · exact key s (hP.refl s) h
    · cases h; exact hP.refl s

theorem Closed.waitAll (hP : Closed P) {o : Opts} : ∀ (ws : List Wake) (s t : State) (st : Nat), TrapsIn P ws → waitAll o ws s = some (st, t) → P s t
  | ws, s, t, st, hw, h => by
    rw [Yash.Job.waitAll.eq_def] at h
    dsimp only at h
    cases h1 : waitHasJob o s with
    | none => rw [h1] at h; cases h
    | some p =>
      rw [h1] at h
      simp only [Option.bind_eq_bind, Option.bind_some] at h
      have h2 : P s p.2 := by
        simp only [waitHasJob, Option.bind_eq_bind] at h1
        cases h3 : Yash.Job.waitClean o s.jobs.length 1 s with
        | none => rw [h3] at h1; cases h1
        | some u =>
          rw [h3] at h1
          cases h1
          exact hP.waitClean _ _ _ _ h3
      split at h
      · cases h; exact h2
      · split at h
        · cases h
        · rename_i w ws
          cases h4 : Yash.Job.waitForSigchld o o.jobControl true w p.2 with
          | none => rw [h4] at h; cases h
          | some q =>
            rw [h4] at h
            simp only [Option.bind_some] at h
            have h5 : P s q.2 := hP.trans h2 (hP.waitForSigchld (fun _ => hw w (List.mem_cons_self ..)) h4)
            split at h
            · cases h; exact h5
            · exact hP.trans h5 (hP.waitAll ws q.2 t st (fun w' hw' => hw w' (List.mem_cons_of_mem _ hw')) h)

theorem Closed.disownOperands (hP : Closed P) {o : Opts} : ∀ (as : List (List Char)) (s t : State) (es : List Error), disown.operands o as s = some (es, t) → P s t
  | [], s, t, es, h => by
    simp only [disown.operands] at h
    cases h; exact hP.refl s
  | a :: as, s, t, es, h => by
    simp only [disown.operands] at h
    split at h
    · cases h1 : disown.operands o as s with
      | none => rw [h1] at h; cases h
      | some p =>
        rw [h1] at h
        cases h
        exact hP.disownOperands as s _ _ h1
    · split at h
      · cases h1 : disown.operands o as s with
        | none => rw [h1] at h; cases h
        | some p =>
          rw [h1] at h
          cases h
          exact hP.disownOperands as s _ _ h1
      · rename_i n _ _
        cases h1 : removeJob s n with
        | none => rw [h1] at h; cases h
        | some u =>
          rw [h1] at h
          exact hP.trans (hP.rem h1) (hP.disownOperands as u _ _ h)

theorem Closed.disown (hP : Closed P) {o : Opts} {all : Bool} {args : List (List Char)} {s t : State} {es : List Error} (h : disown o all args s = some (es, t)) : P s t := by
  simp only [Yash.Job.disown] at h
  split at h
  · cases h; exact hP.all s
  · split at h
    · split at h
      · cases h; exact hP.refl s
      · cases h1 : removeJob s s.current with
        | none => rw [h1] at h; cases h
        | some u =>
          rw [h1] at h
          cases h
          exact hP.rem h1
    · exact hP.disownOperands _ _ _ _ h

/-- Everything that happens meets the relation if new jobs do. -/
theorem Closed.runs (hP : Closed P) {o : Opts} {new : Prop}
    (ha : new → ∀ key cs s t, startAsync o key cs s = some t → P s t)
    (hf : new → ∀ key cs ws st s t, runForeground o key cs ws s = some (st, t) → P s t) {s t : State} (h : Runs o new s t) : P s t := by
  refine Runs.rec (motive_1 := fun s t _ => P s t) (motive_2 := fun ws _ => TrapsIn P ws) ?_ ?_ ?_ ?_ ?_ ?_ ?_ ?_ ?_ ?_ ?_ ?_ ?_ ?_ h
  · exact hP.refl
  · intro _ _ _ _ _ h1 h2; exact hP.trans h1 h2
  · intro _ _ _ _ h; exact hP.handleSigchld h
  · intro _ _ _ h; exact hP.printAll h
  · intro _ _ _ _ _ _ h; exact hP.jobsBuiltin h
  · intro _ _ _ _ _ _ _ _ _ _ h _ _; exact hP.fgBuiltin h
  · intro _ _ _ _ _ _ h hw; exact hP.waitForSpec hw h
  · intro _ _ _ _ _ h hw; exact hP.waitAll _ _ _ _ hw h
  · intro _ _ _ _ _ h; exact hP.disown h
  · exact hP.neg
  · intro _ _ _ _ hn h; exact ha hn _ _ _ _ h
  · intro _ _ _ _ _ _ hn h; exact hf hn _ _ _ _ _ _ h
  · intro w hw; cases hw
  · intro w ws _ _ ih1 ih2 w' hw'
    rcases List.mem_cons.1 hw' with rfl | hw'
    · exact ih1
    · exact ih2 w' hw'

end Yash.Job
