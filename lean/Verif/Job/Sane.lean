import Verif.Job.Wait
/-!
# The statuses of jobs fit the statuses of their processes
-/
set_option autoImplicit false

namespace Yash.Job

open Spec

/-- The status of the process is the one that was reported last. -/
def Coherent (p : Process) : Prop := (p.code = none ∧ p.status = .running) ∨ ∃ r, p.code = some r ∧ p.status = stateOf r

theorem Coherent.desc {p : Process} (h : Coherent p) : p.desc.isSome = true := by
  unfold Process.desc
  rcases h with ⟨h1, h2⟩ | ⟨r, h1, h2⟩
  · rw [h1, h2]; rfl
  · rw [h1, h2]
    cases r <;> rfl

/-- The status of the job is one that can be printed. -/
structure Sane (j : Job) : Prop where
  stopped : j.status = .stopped → ∃ p ∈ j.procs, p.status = .stopped
  done : j.status = .done → j.procs ≠ [] ∧ ∀ p ∈ j.procs, p.status = .done
  procs : ∀ p ∈ j.procs, Coherent p

/-- All the jobs are. -/
def AllSane (s : State) : Prop := ∀ n j, jobAt s n = some j → Sane j

theorem coherent_report (p : Process) (r : WaitStatus) : Coherent { p with code := some r, status := r.toStatus } := .inr ⟨r, rfl, toStatus_eq r⟩

theorem updateProcs_coherent (e : Event) : ∀ ps : List Process, (∀ p ∈ ps, Coherent p) → ∀ p ∈ updateProcs e ps, Coherent p
  | [], _ => fun p hp => by cases hp
  | q :: ps, h => by
    intro p hp
    simp only [updateProcs] at hp
    split at hp
    · rcases List.mem_cons.1 hp with rfl | hp
      · exact coherent_report _ _
      · exact h p (List.mem_cons_of_mem _ hp)
    · rcases List.mem_cons.1 hp with rfl | hp
      · exact h _ (List.mem_cons_self ..)
      · exact updateProcs_coherent e ps (fun p hp => h p (List.mem_cons_of_mem _ hp)) p hp

theorem updateJob_sane {j : Job} {e : Event} (h : Sane j) (hh : j.procs.any (·.isFor e.pid) = true) : Sane (updateJob e j) := by
  have hs := summary_spec (updateProcs e j.procs)
  refine ⟨fun h1 => ?_, fun h1 => ?_, updateProcs_coherent e _ h.procs⟩
  · have h1 : summary (updateProcs e j.procs) = .stopped := h1
    rw [h1] at hs
    rcases hs with ⟨h, _⟩ | ⟨_, _, h⟩ | ⟨h, _⟩
    · cases h
    · exact h
    · cases h
  · have h1 : summary (updateProcs e j.procs) = .done := h1
    rw [h1] at hs
    rcases hs with ⟨h, _⟩ | ⟨h, _⟩ | ⟨_, h⟩
    · cases h
    · cases h
    · refine ⟨fun h0 => ?_, h⟩
      have := congrArg (List.map Process.pid) h0
      simp only [updateJob, updateProcs_pids, List.map_nil, List.map_eq_nil_iff] at this
      rw [this] at hh
      cases hh

theorem updateJobs_mem (e : Event) : ∀ (js : List (Option Job)) (k : Job), some k ∈ updateJobs e js → some k ∈ js ∨
    ∃ j, some j ∈ js ∧ j.procs.any (·.isFor e.pid) = true ∧ k = updateJob e j
  | none :: js, k, h => by
    simp only [updateJobs] at h
    rcases List.mem_cons.1 h with h | h
    · cases h
    · rcases updateJobs_mem e js k h with h | ⟨j, h, h'⟩
      · exact .inl (List.mem_cons_of_mem _ h)
      · exact .inr ⟨j, List.mem_cons_of_mem _ h, h'⟩
  | some i :: js, k, h => by
    simp only [updateJobs] at h
    split at h
    · rename_i hh
      rcases List.mem_cons.1 h with h | h
      · cases h
        exact .inr ⟨i, List.mem_cons_self .., hh, rfl⟩
      · exact .inl (List.mem_cons_of_mem _ h)
    · rcases List.mem_cons.1 h with h | h
      · cases h
        exact .inl (List.mem_cons_self ..)
      · rcases updateJobs_mem e js k h with h | ⟨j, h, h'⟩
        · exact .inl (List.mem_cons_of_mem _ h)
        · exact .inr ⟨j, List.mem_cons_of_mem _ h, h'⟩

theorem allSane_iff (s : State) : AllSane s ↔ ∀ j, some j ∈ s.jobs → Sane j := by
  constructor
  · intro h j hj
    obtain ⟨n, hn⟩ := mem_iff_jobAt.1 hj
    exact h n j hn
  · intro h n j hj
    exact h j (mem_iff_jobAt.2 ⟨n, hj⟩)

theorem doWait_sane (es : List Event) : ∀ s : State, AllSane s → AllSane (doWait s es) := by
  unfold doWait
  induction es with
  | nil => exact fun s h => h
  | cons e es ih =>
    intro s h
    simp only [List.foldl_cons]
    refine ih { s with jobs := updateJobs e s.jobs } ?_
    rw [allSane_iff] at h ⊢
    intro k hk
    rcases updateJobs_mem e _ k hk with hk | ⟨j, hj, hh, rfl⟩
    · exact h k hk
    · exact updateJob_sane (h j hj) hh

theorem sane_of_eq {s t : State} (h : ∀ n, jobAt t n = none ∨ jobAt t n = jobAt s n) (hs : AllSane s) : AllSane t := by
  intro n j hj
  rcases h n with h | h
  · rw [h] at hj; cases hj
  · rw [h] at hj; exact hs n j hj

theorem sane_closed : Closed (fun s t => AllSane s → AllSane t) where
  refl _ h := h
  trans h h' x := h' (h x)
  cur s n := sane_of_eq fun _ => .inr rfl
  upd {s n j j'} hj h1 h2 h3 h4 hs m k hk := by
    rw [jobAt_setJob (jobAt_lt hj)] at hk
    split at hk
    · cases hk
      have := hs n j hj
      obtain ⟨a, b, c⟩ := this
      rw [← h3] at a b c
      rcases h4 with h4 | h4
      · rw [← h4] at a b
        exact ⟨a, b, c⟩
      · exact ⟨fun h => absurd (h4.symm.trans h) (by simp), fun h => absurd (h4.symm.trans h) (by simp), c⟩
    · exact hs m k hk
  rem h := sane_of_eq fun m => by
    rw [jobAt_removeJob h]
    split
    · exact .inl rfl
    · exact .inr rfl
  ev s es := doWait_sane es s
  all s := sane_of_eq fun n => .inl (removeAll_jobAt s n)
  neg s hs := by
    rw [allSane_iff] at hs ⊢
    intro j hj
    simp only [neglectAll, List.mem_map] at hj
    obtain ⟨x, hx, he⟩ := hj
    cases x with
    | none => cases he
    | some i =>
      cases he
      obtain ⟨a, b, c⟩ := hs i hx
      exact ⟨a, b, c⟩

theorem newJob_sane (key : Nat) (o : Opts) (cs : List (Option Nat × List Char)) : Sane (newJob key o cs) := by
  refine ⟨fun h => (nomatch h), fun h => (nomatch h), fun p hp => ?_⟩
  simp only [newJob, List.mem_map] at hp
  obtain ⟨c, _, rfl⟩ := hp
  unfold startProcess
  split
  · exact .inl ⟨rfl, rfl⟩
  · exact .inr ⟨_, rfl, rfl⟩

theorem setActive_sane {s t : State} {j : Job} (h : setActive s j = some t) (hj : Sane j) (hs : AllSane s) : AllSane t := by
  intro n k hk
  rw [jobAt_setActive h] at hk
  split at hk
  · cases hk; exact hj
  · exact hs n k hk

theorem addJob_sane {s t : State} {b : Bool} (h : addJob s b = some t) (hs : AllSane s) : AllSane t := by
  obtain ⟨j, js, n, g1, g2, g3, _⟩ := addJob_spec h
  intro m k hk
  rw [g3] at hk
  split at hk
  · cases hk
    exact (allSane_iff s).1 hs j (by rw [g1]; exact List.mem_cons_self ..)
  · split at hk
    · cases hk
    · exact hs m k hk

theorem runs_sane {o : Opts} {s : State} (h : Runs o True init s) : AllSane s := by
  refine sane_closed.runs (fun _ key cs s t h hs => ?_) (fun _ key cs ws st s t h hs => ?_) h ?_
  · obtain ⟨u, h1, h2⟩ := startAsync_some h
    exact addJob_sane h2 (setActive_sane h1 (newJob_sane ..) hs)
  · obtain ⟨u, v, sig, j, h1, h2, h3, h4, h5⟩ := runForeground_some h
    have hu := setActive_sane h1 (newJob_sane ..) hs
    have hv := sane_closed.waitForJob (fun h => by cases h) h2 hu
    rcases h5 with ⟨_, h5⟩ | ⟨_, h5⟩
    · exact sane_closed.rem h5 hv
    · exact addJob_sane h5 hv
  · rw [allSane_iff]
    intro j hj
    simp [init] at hj

/-! ## Sane jobs can be printed and have exit statuses -/

theorem getLast_mem {ps : List Process} (h : ps ≠ []) : ∃ p ∈ ps, ps.getLast? = some p := ⟨ps.getLast h, List.getLast_mem h, List.getLast?_eq_some_getLast h⟩

theorem find_stopped {ps : List Process} (h : ∃ p ∈ ps, p.status = .stopped) : ∃ p ∈ ps, p.status = .stopped ∧ ps.reverse.find? (·.status == .stopped) = some p := by
  cases hf : ps.reverse.find? (·.status == .stopped) with
  | none =>
    rw [List.find?_eq_none] at hf
    obtain ⟨p, hp, hs⟩ := h
    exact absurd (by simp [hs]) (hf p (by simpa using hp))
  | some p =>
    have h1 := List.mem_of_find?_eq_some hf
    have h2 := List.find?_some hf
    exact ⟨p, by simpa using h1, by simpa using h2, rfl⟩

theorem Sane.desc {j : Job} (h : Sane j) : j.desc.isSome = true := by
  unfold Job.desc
  cases hs : j.status with
  | running => rfl
  | stopped =>
    obtain ⟨p, hp, _, hf⟩ := find_stopped (h.stopped hs)
    simp only [hf, Option.bind_some]
    exact (h.procs p hp).desc
  | done =>
    obtain ⟨p, hp, hl⟩ := getLast_mem (h.done hs).1
    simp only [hl, Option.bind_some]
    exact (h.procs p hp).desc

theorem Coherent.code {p : Process} (h : Coherent p) (hs : p.status ≠ .running) : ∃ r, p.code = some r ∧ stateOf r = p.status := by
  rcases h with ⟨_, h2⟩ | ⟨r, h1, h2⟩
  · exact absurd h2 hs
  · exact ⟨r, h1, h2.symm⟩

theorem pipefailLoop_some : ∀ (ps : List Process), (∀ p ∈ ps, p.code.isSome = true) → (pipefailLoop ps).isSome = true
  | [], _ => rfl
  | p :: ps, h => by
    obtain ⟨r, hr⟩ := Option.isSome_iff_exists.1 (h p (List.mem_cons_self ..))
    simp only [pipefailLoop, Process.exitStatus, hr, Option.map_some, Option.bind_eq_bind, Option.bind_some]
    split
    · rfl
    · exact pipefailLoop_some ps fun p hp => h p (List.mem_cons_of_mem _ hp)

theorem Sane.exitStatus {j : Job} (h : Sane j) (hs : j.status ≠ .running) (pf : Bool) : (j.exitStatus pf).isSome = true := by
  unfold Job.exitStatus
  cases hst : j.status with
  | running => exact absurd hst hs
  | stopped =>
    obtain ⟨p, hp, hps, hf⟩ := find_stopped (h.stopped hst)
    obtain ⟨r, hr, _⟩ := (h.procs p hp).code (by rw [hps]; simp)
    simp [hf, Process.exitStatus, hr]
  | done =>
    obtain ⟨hne, hd⟩ := h.done hst
    have hc : ∀ p ∈ j.procs, p.code.isSome = true := fun p hp => by
      obtain ⟨r, hr, _⟩ := (h.procs p hp).code (by rw [hd p hp]; simp)
      rw [hr]; rfl
    simp only
    split
    · obtain ⟨p, hp, hl⟩ := getLast_mem hne
      obtain ⟨r, hr⟩ := Option.isSome_iff_exists.1 (hc p hp)
      simp [hl, Process.exitStatus, hr]
    · exact pipefailLoop_some _ fun p hp => hc p (by simpa using hp)

theorem printJob_some {s : State} (hs : AllSane s) (n : Nat) (c : Bool) : ∃ x, printJob s n c false = some x := by
  unfold printJob
  split
  · exact ⟨_, rfl⟩
  · rename_i j hj
    rw [getJob_eq] at hj
    split
    · exact ⟨_, rfl⟩
    · obtain ⟨d, hd⟩ := Option.isSome_iff_exists.1 (hs n j hj).desc
      simp only [hd, Option.bind_eq_bind, Option.bind_some, Bool.false_and, Bool.false_eq_true, if_false]
      exact ⟨_, rfl⟩

theorem printJob_remove_some {s : State} (hs : AllSane s) (n : Nat) (c : Bool) : ∃ x, printJob s n c true = some x := by
  unfold printJob
  split
  · exact ⟨_, rfl⟩
  · rename_i j hj
    rw [getJob_eq] at hj
    split
    · exact ⟨_, rfl⟩
    · obtain ⟨d, hd⟩ := Option.isSome_iff_exists.1 (hs n j hj).desc
      simp only [hd, Option.bind_eq_bind, Option.bind_some]
      split
      · have hl : n < (setJob s n { j with changed := false }).jobs.length := by simpa [setJob] using jobAt_lt hj
        simp only [removeJob, if_pos hl, Option.bind_some]
        exact ⟨_, rfl⟩
      · exact ⟨_, rfl⟩

theorem printLoop_some {pr : State → Nat → Option (List Report × State)} (h1 : ∀ s n, AllSane s → ∃ x, pr s n = some x)
    (h2 : ∀ s n rs t, pr s n = some (rs, t) → AllSane s → AllSane t) : ∀ (k i : Nat) (s : State), AllSane s → ∃ x, printLoop pr k i s = some x
  | 0, i, s, _ => ⟨_, rfl⟩
  | k + 1, i, s, hs => by
    simp only [printLoop]
    split
    · obtain ⟨⟨rs, t⟩, hx⟩ := h1 s i hs
      obtain ⟨⟨rs', t'⟩, hy⟩ := printLoop_some h1 h2 k (i + 1) t (h2 _ _ _ _ hx hs)
      simp only [hx, Option.bind_eq_bind, Option.bind_some, hy]
      exact ⟨_, rfl⟩
    · exact ⟨_, rfl⟩

theorem printAll_some {s : State} (o : Opts) (hs : AllSane s) : ∃ x, printAll o s = some x :=
  printLoop_some (fun s n hs => printJob_some hs n true) (fun _ _ _ _ h => sane_closed.printJob h) _ _ _ (sane_closed.applyCurstop o s hs)

theorem handleSigchld_some {s : State} (o : Opts) (es : List Event) (hs : AllSane s) : ∃ x, handleSigchld o es s = some x := by
  simp only [handleSigchld]
  split
  · exact printAll_some o (doWait_sane es s hs)
  · exact ⟨_, rfl⟩

/-! ## A wait ends -/

theorem waitForSigchld_some {s : State} (o : Opts) (i r : Bool) (w : Wake) (hw : (i && w.sigint) = false ∧ (r = false ∨ w.trap = none)) (hs : AllSane s) :
    ∃ t out, waitForSigchld o i r w s = some (0, t) ∧ handleSigchld o w.events s = some (out, t) := by
  obtain ⟨⟨out, t⟩, h⟩ := handleSigchld_some o w.events hs
  refine ⟨t, out, ?_, h⟩
  have key : ∀ x : Nat × State, x = (0, s) → ((handleSigchld o w.events x.2).bind fun y => some (x.1, y.2)) = some (0, t) := by
    rintro x rfl
    simp only [h]
    rfl
  simp only [waitForSigchld, hw.1, Bool.false_eq_true, if_false, Option.bind_eq_bind]
  refine key _ ?_
  rcases hw.2 with rfl | hr
  · cases w.trap <;> rfl
  · rw [hr]

theorem waitLoop_some {o : Opts} {n key : Nat} {rs i rt : Bool} : ∀ (ws : List Wake) (s : State) (j k : Job),
    (∀ w ∈ ws, (i && w.sigint) = false ∧ (rt = false ∨ w.trap = none)) → DistinctPids s → AllSane s → jobAt s n = some j → j.strip = k.strip → j.key = key →
    (∃ a b, ws = a ++ b ∧ fin rs ((arrivals a).foldl Job.on k).status = true) → ∃ x, waitLoop o n key rs i rt ws s = some x
  | ws, s, j, k, hw, hd, hs, hj, hjk, hk, hex => by
    rw [waitLoop.eq_def]
    dsimp only
    rw [getJob_eq, hj]
    dsimp only
    rw [if_neg (by simp [hk])]
    split
    · exact ⟨_, rfl⟩
    · rename_i hf
      obtain ⟨a, b, hab, hfin⟩ := hex
      cases a with
      | nil =>
        simp only [arrivals, List.flatMap_nil, List.foldl_nil] at hfin
        rw [← strip_status hjk] at hfin
        exact absurd hfin hf
      | cons w a =>
        rw [List.cons_append] at hab
        subst hab
        dsimp only
        obtain ⟨t, out, h1, h2⟩ := waitForSigchld_some o i rt w (hw w (List.mem_cons_self ..)) hs
        simp only [h1, Option.bind_eq_bind, Option.bind_some]
        rw [if_neg (by simp)]
        have hal := handleSigchld_alike h2
        have hat := (hal.jobAt n).symm
        rw [doWait_jobAt hd, hj] at hat
        cases hl : jobAt t n with
        | none => rw [hl] at hat; cases hat
        | some l =>
          rw [hl] at hat
          have hls : l.strip = (w.events.foldl Job.on k).strip := by
            rw [Option.map_some, Option.map_some, Option.map_some, Option.some.injEq] at hat
            rw [hat]
            exact strip_foldl _ hjk
          refine waitLoop_some (a ++ b) t l (w.events.foldl Job.on k) (fun w' hw' => hw w' (List.mem_cons_of_mem _ hw'))
            (hal.distinct (doWait_distinct hd _)) (sane_closed.handleSigchld h2 hs) hl hls ?_ ⟨a, b, rfl, ?_⟩
          · rw [strip_key hls, key_foldl, ← strip_key hjk, hk]
          · simpa [arrivals, List.foldl_append] using hfin

theorem waitForJob_some {o : Opts} {n : Nat} {rs i rt : Bool} {ws : List Wake} {s : State} {j : Job}
    (hw : ∀ w ∈ ws, (i && w.sigint) = false ∧ (rt = false ∨ w.trap = none)) (hd : DistinctPids s) (hs : AllSane s) (hj : jobAt s n = some j)
    (hleg : j.legacy = false) (hex : ∃ a b, ws = a ++ b ∧ fin rs ((arrivals a).foldl Job.on j).status = true) :
    ∃ t, waitForJob o n rs i rt ws s = some (0, t) := by
  have hal := alike_setJob (s := s) (j' := { j with nonotify := true }) hj rfl
  obtain ⟨⟨sig, t⟩, hx⟩ := waitLoop_some (o := o) (n := n) (key := j.key) (rs := rs) ws (setJob s n { j with nonotify := true }) { j with nonotify := true } j hw (hal.distinct hd)
    (sane_closed.upd hj rfl rfl rfl (.inl rfl) hs) (by rw [jobAt_setJob (jobAt_lt hj), if_pos rfl]) rfl rfl hex
  obtain ⟨g0, ws₁, ws₂, l, g1, g2, g3, g4, g5⟩ := waitLoop_track ws _ _ _ { j with nonotify := true } j hw (hal.distinct hd)
    (by rw [jobAt_setJob (jobAt_lt hj), if_pos rfl]) rfl hx
  have hk : l.key = j.key := by rw [strip_key g3, key_foldl]
  unfold waitForJob
  rw [getJob_eq, hj]
  dsimp only
  rw [hleg, if_neg (by simp)]
  rw [hleg] at hx
  simp only [Option.bind_eq_bind, hx, Option.bind_some, getJob_eq, g2, hk, bne_self_eq_false, Bool.false_eq_true, if_false, g0]
  exact ⟨_, rfl⟩

end Yash.Job
