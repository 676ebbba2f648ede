import Verif.Job.Track
/-!
# Waiting for a job
-/
set_option autoImplicit false

namespace Yash.Job

open Spec

/-! ## What printing does not change -/

/-- The job without the flags about notifications. -/
def Job.strip (j : Job) : Job := { j with changed := false, nonotify := false }

/-- The two lists are the same but for the flags about notifications. -/
def Alike (s t : State) : Prop := s.jobs.map (Option.map Job.strip) = t.jobs.map (Option.map Job.strip)

theorem Alike.refl (s : State) : Alike s s := rfl
theorem Alike.trans {s t u : State} (h : Alike s t) (h' : Alike t u) : Alike s u := Eq.trans h h'
theorem Alike.symm {s t : State} (h : Alike s t) : Alike t s := Eq.symm h

theorem Alike.jobAt {s t : State} (h : Alike s t) (n : Nat) : (jobAt s n).map Job.strip = (Spec.jobAt t n).map Job.strip := by
  have key : ∀ s : State, (Spec.jobAt s n).map Job.strip = elem (s.jobs.map (Option.map Job.strip)) n := by
    intro s
    rw [jobAt_elem, elem, elem, List.getElem?_map]
    cases s.jobs[n]? with
    | none => rfl
    | some x => cases x <;> rfl
  rw [key, key, h]

theorem liveAll_strip (js : List (Option Job)) : liveAll (js.map (Option.map Job.strip)) = liveAll js := by
  induction js with
  | nil => rfl
  | cons x js ih =>
    cases x with
    | none => simpa [liveAll] using ih
    | some j =>
      have : livePids j.strip.procs = livePids j.procs := rfl
      simp only [liveAll, List.map_cons, List.flatMap_cons, Option.map_some] at ih ⊢
      rw [this, ih]

theorem Alike.distinct {s t : State} (h : Alike s t) (hd : DistinctPids s) : DistinctPids t := by
  rw [distinct_iff, ← liveAll_strip] at *
  rw [← h]
  exact hd

theorem alike_setJob {s : State} {n : Nat} {j j' : Job} (hj : jobAt s n = some j) (h : j'.strip = j.strip) : Alike s (setJob s n j') := by
  have hl := jobAt_lt hj
  have hx : s.jobs[n] = some j := by
    rw [jobAt_elem, elem, List.getElem?_eq_getElem hl] at hj
    simpa using hj
  unfold Alike setJob
  simp only
  rw [List.map_set, Option.map_some, h]
  refine (List.ext_getElem (by simp) fun i h1 h2 => ?_)
  rw [List.getElem_set]
  split
  · rename_i hi
    subst hi
    simp [hx]
  · rfl

theorem printJob_alike {s t : State} {n : Nat} {c : Bool} {rs : List Report} (h : printJob s n c false = some (rs, t)) : Alike s t := by
  unfold printJob at h
  split at h
  · cases h; exact Alike.refl s
  · rename_i j hj
    rw [getJob_eq] at hj
    split at h
    · cases h; exact Alike.refl s
    · cases hdesc : j.desc with
      | none => rw [hdesc] at h; cases h
      | some d =>
        rw [hdesc] at h
        simp only [Option.bind_eq_bind, Option.bind_some, Bool.false_and, Bool.false_eq_true, if_false] at h
        cases h
        exact alike_setJob hj rfl

theorem printLoop_alike {pr : State → Nat → Option (List Report × State)} (hpr : ∀ s n rs t, pr s n = some (rs, t) → Alike s t) :
    ∀ (k i : Nat) (s t : State) (rs : List Report), printLoop pr k i s = some (rs, t) → Alike s t
  | 0, i, s, t, rs, h => by
    simp only [printLoop] at h
    cases h
    exact Alike.refl s
  | k + 1, i, s, t, rs, h => by
    simp only [printLoop] at h
    split at h
    · cases h1 : pr s i with
      | none => rw [h1] at h; cases h
      | some p =>
        rw [h1] at h
        simp only [Option.bind_eq_bind, Option.bind_some] at h
        cases h2 : printLoop pr k (i + 1) p.2 with
        | none => rw [h2] at h; cases h
        | some q =>
          rw [h2] at h
          cases h
          exact (hpr s i p.1 p.2 h1).trans (printLoop_alike hpr k (i + 1) p.2 q.2 q.1 h2)
    · cases h
      exact Alike.refl s

theorem printAll_alike {o : Opts} {s t : State} {rs : List Report} (h : printAll o s = some (rs, t)) : Alike s t := by
  refine Alike.trans ?_ (printLoop_alike (fun _ _ _ _ h => printJob_alike h) _ _ _ _ _ h)
  unfold Alike
  rw [applyCurstop_jobs]

theorem handleSigchld_alike {o : Opts} {es : List Event} {s t : State} {rs : List Report} (h : handleSigchld o es s = some (rs, t)) : Alike (doWait s es) t := by
  simp only [handleSigchld] at h
  split at h
  · exact printAll_alike h
  · cases h; exact Alike.refl _

/-! ## Reports and the flags -/

theorem strip_on (j : Job) (e : Event) : (j.on e).strip = (j.strip.on e).strip := by
  unfold Job.on
  have : j.strip.procs = j.procs := rfl
  rw [this]
  split <;> rfl

theorem strip_foldl : ∀ (es : List Event) {j k : Job}, j.strip = k.strip → (es.foldl Job.on j).strip = (es.foldl Job.on k).strip
  | [], _, _, h => h
  | e :: es, j, k, h => by
    simp only [List.foldl_cons]
    exact strip_foldl es (by rw [strip_on, h, ← strip_on])

theorem strip_key {j k : Job} (h : j.strip = k.strip) : j.key = k.key := (Job.mk.inj h).1
theorem strip_status {j k : Job} (h : j.strip = k.strip) : j.status = k.status := (Job.mk.inj h).2.2.1
theorem strip_procs {j k : Job} (h : j.strip = k.strip) : j.procs = k.procs := (Job.mk.inj h).2.2.2.2.2.2

/-- The wait is over. -/
def fin (rs : Bool) (st : Status) : Bool := st == .done || (rs && st == .stopped)

/-- The reports that arrive. -/
def arrivals (ws : List Wake) : List Event := ws.flatMap Wake.events

theorem key_foldl (j : Job) : ∀ es : List Event, (es.foldl Job.on j).key = j.key := by
  intro es
  induction es generalizing j with
  | nil => rfl
  | cons e es ih =>
    simp only [List.foldl_cons]
    rw [ih]
    unfold Job.on
    split <;> rfl

theorem waitForSigchld_plain {o : Opts} {i r : Bool} {w : Wake} {s t : State} {n : Nat} (hi : (i && w.sigint) = false) (hr : r = false ∨ w.trap = none)
    (h : waitForSigchld o i r w s = some (n, t)) : n = 0 ∧ ∃ out, handleSigchld o w.events s = some (out, t) := by
  simp only [waitForSigchld, hi, Bool.false_eq_true, if_false, Option.bind_eq_bind] at h
  have key : ∀ x : Nat × State, x = (0, s) → ((handleSigchld o w.events x.2).bind fun y => some (x.1, y.2)) = some (n, t) → n = 0 ∧ ∃ out, handleSigchld o w.events s = some (out, t) := by
    rintro x rfl h
    cases h1 : handleSigchld o w.events s with
    | none => rw [h1] at h; cases h
    | some p =>
      rw [h1] at h
      cases h
      exact ⟨rfl, p.1, rfl⟩
  refine key _ ?_ h
  rcases hr with rfl | hr
  · cases w.trap <;> rfl
  · rw [hr]

/-- What a wait without interruptions does. -/
theorem waitLoop_track {o : Opts} {n key : Nat} {rs i rt : Bool} : ∀ (ws : List Wake) (s t : State) (sig : Nat) (j k : Job),
    (∀ w ∈ ws, (i && w.sigint) = false ∧ (rt = false ∨ w.trap = none)) → DistinctPids s → jobAt s n = some j → j.strip = k.strip →
    waitLoop o n key rs i rt ws s = some (sig, t) →
    sig = 0 ∧ ∃ ws₁ ws₂ l, ws = ws₁ ++ ws₂ ∧ jobAt t n = some l ∧ l.strip = ((arrivals ws₁).foldl Job.on k).strip ∧ fin rs l.status = true ∧
      ∀ a b, ws₁ = a ++ b → b ≠ [] → fin rs ((arrivals a).foldl Job.on k).status = false
  | ws, s, t, sig, j, k, hw, hd, hj, hjk, h => by
    rw [waitLoop.eq_def] at h
    dsimp only at h
    rw [getJob_eq, hj] at h
    dsimp only at h
    split at h
    · cases h
    · split at h
      · rename_i hf
        cases h
        refine ⟨rfl, [], ws, j, rfl, hj, hjk, hf, fun a b hab hb => ?_⟩
        have := List.append_eq_nil_iff.1 hab.symm
        exact absurd this.2 hb
      · rename_i hf
        split at h
        · cases h
        · rename_i w ws
          cases h1 : waitForSigchld o i rt w s with
          | none => rw [h1] at h; cases h
          | some p =>
            rw [h1] at h
            simp only [Option.bind_eq_bind, Option.bind_some] at h
            obtain ⟨hp, out, h2⟩ := waitForSigchld_plain (hw w (List.mem_cons_self ..)).1 (hw w (List.mem_cons_self ..)).2 h1
            rw [hp, if_neg (by simp)] at h
            have hal := handleSigchld_alike h2
            have hat := (hal.jobAt n).symm
            rw [doWait_jobAt hd, hj] at hat
            cases hl : jobAt p.2 n with
            | none => rw [hl] at hat; cases hat
            | some l =>
              rw [hl] at hat
              have hls : l.strip = (w.events.foldl Job.on k).strip := by
                rw [Option.map_some, Option.map_some, Option.map_some, Option.some.injEq] at hat
                rw [hat]
                exact strip_foldl _ hjk
              obtain ⟨hs0, ws₁, ws₂, m, g1, g2, g3, g4, g5⟩ := waitLoop_track ws p.2 t sig l (w.events.foldl Job.on k) (fun w' hw' => hw w' (List.mem_cons_of_mem _ hw'))
                (hal.distinct (doWait_distinct hd _)) hl hls h
              refine ⟨hs0, w :: ws₁, ws₂, m, by rw [g1]; rfl, g2, ?_, g4, fun a b hab hb => ?_⟩
              · rw [g3]
                simp [arrivals, List.foldl_append]
              · cases a with
                | nil =>
                  rw [← Bool.not_eq_true]
                  have := strip_status hjk
                  simp only [arrivals, List.flatMap_nil, List.foldl_nil]
                  rw [← this]
                  exact hf
                | cons x a =>
                  simp only [List.cons_append, List.cons.injEq] at hab
                  obtain ⟨rfl, hab⟩ := hab
                  have := g5 a b hab hb
                  simpa [arrivals, List.foldl_append] using this

theorem waitForJob_track {o : Opts} {n : Nat} {rs i rt : Bool} {ws : List Wake} {s t : State} {sig : Nat} {j : Job}
    (hw : ∀ w ∈ ws, (i && w.sigint) = false ∧ (rt = false ∨ w.trap = none)) (hd : DistinctPids s) (hj : jobAt s n = some j) (hleg : j.legacy = false)
    (h : waitForJob o n rs i rt ws s = some (sig, t)) : sig = 0 ∧ ∃ ws₁ ws₂ l, ws = ws₁ ++ ws₂ ∧ jobAt t n = some l ∧
      l.strip = ((arrivals ws₁).foldl Job.on j).strip ∧ fin rs l.status = true ∧ ∀ a b, ws₁ = a ++ b → b ≠ [] → fin rs ((arrivals a).foldl Job.on j).status = false := by
  simp only [waitForJob, getJob_eq, hj, hleg, Bool.false_eq_true, if_false, Option.bind_eq_bind] at h
  cases h1 : waitLoop o n j.key rs i rt ws (setJob s n { j with nonotify := true, legacy := false }) with
  | none =>
    rw [h1] at h
    cases h
  | some p =>
    rw [h1] at h
    rw [← hleg] at h1
    simp only [Option.bind_some] at h
    obtain ⟨g0, ws₁, ws₂, l, g1, g2, g3, g4, g5⟩ := waitLoop_track ws (setJob s n { j with nonotify := true }) _ _ { j with nonotify := true } j hw ((alike_setJob (j' := { j with nonotify := true }) hj rfl).distinct hd)
      (by rw [jobAt_setJob (jobAt_lt hj), if_pos rfl]) rfl h1
    rw [g2] at h
    dsimp only at h
    split at h
    · cases h
    · cases h
      exact ⟨g0, ws₁, ws₂, { l with nonotify := j.nonotify }, g1, by rw [jobAt_setJob (jobAt_lt g2), if_pos rfl], by rw [← g3]; rfl, g4, g5⟩

end Yash.Job
