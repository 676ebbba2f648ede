import Verif.Job.Props
import Verif.Job.Exit
/-!
# C60: the statuses of processes and jobs for every schedule of the child processes
-/
set_option autoImplicit false

namespace Yash.Job

open Spec

/-! ## Processes -/

/-- Whatever the system reports in whatever order, the status of each process is the last one that was reported about it, up to its end; reports about
other processes do not matter. -/
theorem process_status_tracked {s : State} (hd : DistinctPids s) (es : List Event) {n i : Nat} {j : Job} {p : Process} (hj : jobAt s n = some j) (hp : j.procs[i]? = some p) :
    ∃ k, jobAt (doWait s es) n = some k ∧ k.procs[i]? = some (if p.status = .done then p else Process.after p (reports p.pid es)) := by
  refine ⟨es.foldl Job.on j, by rw [doWait_jobAt hd, hj]; rfl, ?_⟩
  rw [foldl_jobOn_procs es j (livePids_jobAt hd hj), List.getElem?_map, hp]
  simp only [Option.map_some, Option.some.injEq]
  split
  · exact foldl_on_done es p ‹_›
  · exact foldl_on_live es p ‹_›

/-- The status of a job is running, stopped or done as its processes are, once anything has been reported about one of them; until then the job does not
change. If the status of a job has changed, it is marked for being reported to the user. -/
theorem job_status_tracked {s : State} (hd : DistinctPids s) (es : List Event) {n : Nat} {j : Job} (hj : jobAt s n = some j) : ∃ k, jobAt (doWait s es) n = some k ∧ SameJob j k ∧
    ((∀ p ∈ j.procs, p.status ≠ .done → reports p.pid es = []) → k = j) ∧
    ((∃ p ∈ j.procs, p.status ≠ .done ∧ reports p.pid es ≠ []) → JobState k.procs k.status) ∧
    (k.status ≠ j.status ∨ j.changed = true → k.changed = true) := by
  have hk : jobAt (doWait s es) n = some (es.foldl Job.on j) := by rw [doWait_jobAt hd, hj]; rfl
  obtain ⟨h1, h2, h3⟩ := foldl_status es j (livePids_jobAt hd hj)
  refine ⟨_, hk, (doWait_same s es).2 n j _ hj hk, h1, fun h => ?_, fun h => ?_⟩
  · rw [h2 h]; exact summary_spec _
  · cases hc : (es.foldl Job.on j).changed with
    | true => rfl
    | false =>
      obtain ⟨a, b⟩ := h3 hc
      rcases h with h | h
      · exact absurd b h
      · rw [a] at h; cases h

/-- A pipeline of two processes: the first one is stopped and continued, the second one ends, and another process has the same ID later. -/
def exPipe : State := ⟨[none, some exSleep, some ⟨3, 30, .running, false, false, false, [⟨30, .running, none, "a".toList⟩, ⟨31, .running, none, "b".toList⟩]⟩], 7, 2, 1⟩

example : DistinctPids exPipe := by unfold DistinctPids; decide

example : reports 30 [⟨30, .stopped 20⟩, ⟨31, .exited 4⟩, ⟨30, .continued⟩, ⟨31, .exited 5⟩] = [.stopped 20, .continued] ∧
    reports 31 [⟨30, .stopped 20⟩, ⟨31, .exited 4⟩, ⟨30, .continued⟩, ⟨31, .exited 5⟩] = [.exited 4] := ⟨rfl, rfl⟩

example : (jobAt (doWait exPipe [⟨30, .stopped 20⟩, ⟨31, .exited 4⟩]) 2).map Job.status = some .stopped ∧
    (jobAt (doWait exPipe [⟨30, .stopped 20⟩, ⟨31, .exited 4⟩, ⟨30, .continued⟩, ⟨31, .exited 5⟩]) 2).map Job.status = some .running := ⟨rfl, rfl⟩

/-! ## Pipelines in the foreground -/

theorem exitStatus_strip {j k : Job} (h : j.strip = k.strip) (pf : Bool) : j.exitStatus pf = k.exitStatus pf := by
  unfold Job.exitStatus
  rw [strip_status h, strip_procs h]

/-- Whatever is reported about child processes and in whatever order, a pipeline in the foreground is waited for until all its processes have ended or, if
job control is on, have ended or stopped, and no longer; reports about other processes do not matter. The exit status is that of the last command of the
pipeline, or with the option `pipefail` that of the last command that failed; if the pipeline has stopped, that of the last command that has. -/
theorem foreground_exit_status {o : Opts} {s t : State} {key : Nat} {cs : List (Option Nat × List Char)} {ws : List Wake} {st : Nat} (hr : Runs o True init s)
    (hd : DistinctPids s) (hf : FreshPids s cs) (h : runForeground o key cs ws s = some (st, t)) :
    ∃ ws₁ ws₂, ws = ws₁ ++ ws₂ ∧ Over o.jobControl (ws₁.flatMap Wake.events) cs ∧
      (∀ a b, ws₁ = a ++ b → b ≠ [] → ¬Over o.jobControl (a.flatMap Wake.events) cs) ∧
      ExitStatus o.pipefail (cs.map (lastReport (ws₁.flatMap Wake.events))) st := by
  obtain ⟨u, v, sig, j, h1, h2, h3, h4, _⟩ := runForeground_some h
  have hu := jobAt_setActive h1
  have hsu := setActive_sane h1 (newJob_sane ..) (runs_sane hr)
  have hu0 : jobAt u 0 = some (newJob key o cs) := by rw [hu, if_pos rfl]
  obtain ⟨_, ws₁, ws₂, l, g1, g2, g3, g4, g5⟩ := waitForJob_track (fun _ _ => ⟨rfl, .inl rfl⟩) (new_distinct hd hf h1) hu0 rfl h2
  have hlj : l = j := by
    rw [getJob_eq, g2] at h3
    exact Option.some.inj h3
  subst hlj
  obtain ⟨n1, n2, n3⟩ := newJob_after (key := key) (o := o) hf.1 (arrivals ws₁)
  have hst : ∃ c ∈ cs, c.1.isSome = true ∧ lastReport (arrivals ws₁) c ≠ none := by
    by_cases hx : ∃ c ∈ cs, c.1.isSome = true ∧ lastReport (arrivals ws₁) c ≠ none
    · exact hx
    · have := n3 fun c hc hs => by
        cases hl : lastReport (arrivals ws₁) c with
        | none => rfl
        | some r => exact absurd ⟨c, hc, hs, by rw [hl]; simp⟩ hx
      rw [strip_status g3, this] at g4
      simp [fin] at g4
  have hst' : ∃ c ∈ cs, c.1.isSome = true := hst.imp fun c hc => ⟨hc.1, hc.2.1⟩
  refine ⟨ws₁, ws₂, g1, (over_iff hf.1 hst' _ _).1 (by rw [strip_status g3] at g4; exact g4), fun a b hab hb ho => ?_, ?_⟩
  · have := g5 a b hab hb
    rw [arrivals, (over_iff (key := key) (o := o) hf.1 hst' _ _).2 ho] at this
    cases this
  · have hsane : Sane l := by
      have := sane_closed.waitForJob (fun h => by cases h) h2 hsu
      exact this 0 l g2
    have := exitStatus_spec hsane (by rw [strip_procs g3, strip_status g3, n1]; exact n2 hst) h4
    rw [strip_procs g3, n1, List.map_map] at this
    have hc : (Process.code ∘ procOf (arrivals ws₁)) = lastReport (arrivals ws₁) := by
      funext c
      exact (procOf_code _ c).1
    rw [hc] at this
    exact this

/-- The wait always ends once the reports that it needs have arrived, and then the shell goes on: nothing that it uses is undefined. This holds for
pipelines for which at least one process was created. -/
theorem foreground_ends {o : Opts} {s : State} {key : Nat} {cs : List (Option Nat × List Char)} {ws : List Wake} (hr : Runs o True init s)
    (hd : DistinctPids s) (hf : FreshPids s cs) (hst : ∃ c ∈ cs, c.1.isSome = true) (ho : ∃ a b, ws = a ++ b ∧ Over o.jobControl (a.flatMap Wake.events) cs) :
    ∃ st t, runForeground o key cs ws s = some (st, t) := by
  obtain ⟨hi, _⟩ := current_job_valid hr
  obtain ⟨js, hjs⟩ := hi
  have h1 : setActive s (newJob key o cs) = some { s with jobs := some (newJob key o cs) :: js } := by simp [setActive, hjs]
  generalize hu : ({ s with jobs := some (newJob key o cs) :: js } : State) = u at h1
  have hsu := setActive_sane h1 (newJob_sane ..) (runs_sane hr)
  have hu0 : jobAt u 0 = some (newJob key o cs) := by rw [jobAt_setActive h1, if_pos rfl]
  obtain ⟨v, h2⟩ := waitForJob_some (o := o) (rs := o.jobControl) (i := false) (rt := false) (ws := ws) (fun _ _ => ⟨rfl, .inl rfl⟩) (new_distinct hd hf h1) hsu hu0 rfl (by
    obtain ⟨a, b, hab, ho⟩ := ho
    exact ⟨a, b, hab, (over_iff hf.1 hst _ _).2 ho⟩)
  obtain ⟨_, ws₁, ws₂, l, g1, g2, g3, g4, g5⟩ := waitForJob_track (fun _ _ => ⟨rfl, .inl rfl⟩) (new_distinct hd hf h1) hu0 rfl h2
  have hsv := sane_closed.waitForJob (fun h => by cases h) h2 hsu
  obtain ⟨st, hst⟩ := Option.isSome_iff_exists.1 ((hsv 0 l g2).exitStatus (by rintro h; rw [h] at g4; simp [fin] at g4) o.pipefail)
  refine ⟨st, ?_⟩
  unfold runForeground
  simp only [h1, Option.bind_eq_bind, Option.bind_some, h2, getJob_eq, g2, hst]
  split
  · have : removeJob v 0 = some (setCurrent (trim { v with jobs := v.jobs.set 0 none }) (trim { v with jobs := v.jobs.set 0 none }).current) := by
      unfold removeJob
      rw [if_pos (jobAt_lt g2)]
    rw [this]
    exact ⟨_, rfl⟩
  · have hv : ∃ js', v.jobs = some l :: js' := by
      have := g2
      rw [jobAt_elem, elem] at this
      cases hvj : v.jobs with
      | nil => rw [hvj] at this; cases this
      | cons x js' =>
        rw [hvj] at this
        cases x with
        | none => cases this
        | some y => cases this; exact ⟨js', rfl⟩
    obtain ⟨js', hv⟩ := hv
    unfold addJob
    rw [hv]
    exact ⟨_, rfl⟩

/-- A pipeline of three commands, the second of which could not be started; another child process ends, too. -/
def exCmds : List (Option Nat × List Char) := [(some 30, "a".toList), (none, "b".toList), (some 31, "c".toList)]
def exWakes : List Wake := [⟨none, false, [⟨31, .exited 0⟩, ⟨10, .exited 1⟩]⟩, ⟨none, true, []⟩, ⟨none, false, [⟨30, .signaled 9⟩]⟩, ⟨none, false, [⟨99, .exited 1⟩]⟩]

example : ∃ s, exPair = some s ∧ Runs exOpts True init s ∧ DistinctPids s ∧ FreshPids s exCmds ∧ (runForeground exOpts 5 exCmds exWakes s).map Prod.fst = some 0 ∧
    (runForeground { exOpts with pipefail := true } 5 exCmds exWakes s).map Prod.fst = some 126 :=
  ⟨_, rfl, .andThen (.async 1 [(some 10, "sleep 1".toList)] trivial rfl) (.async 2 [(some 20, "echo a".toList), (some 21, "cat".toList)] trivial rfl),
    by unfold DistinctPids; decide, ⟨by decide, by
      intro pid hpid n j hj p hp _
      have hpid : pid = 30 ∨ pid = 31 := by simpa [exCmds] using hpid
      match n, hj with
      | 1, hj =>
        cases hj
        have hp : p = ⟨10, .running, none, "sleep 1".toList⟩ := by simpa [newJob, startProcess] using hp
        subst hp
        rcases hpid with rfl | rfl <;> decide
      | 2, hj =>
        cases hj
        have hp : p = ⟨20, .running, none, "echo a".toList⟩ ∨ p = ⟨21, .running, none, "cat".toList⟩ := by simpa [newJob, startProcess] using hp
        rcases hp with rfl | rfl <;> rcases hpid with rfl | rfl <;> decide⟩, rfl, rfl⟩

example : Over true ((exWakes.take 3).flatMap Wake.events) exCmds := .inl fun c hc => by
  have hc : c = (some 30, "a".toList) ∨ c = (none, "b".toList) ∨ c = (some 31, "c".toList) := by simpa [exCmds] using hc
  rcases hc with rfl | rfl | rfl
  · exact ⟨.signaled 9, rfl, rfl⟩
  · exact ⟨.exited 126, rfl, rfl⟩
  · exact ⟨.exited 0, rfl, rfl⟩

/-! ## `wait` -/

/-- Whatever is reported in whatever order, `wait` for a job waits until the job has ended or, if job control is on, has stopped, and no longer, and its exit
status is that of the job, as for pipelines in the foreground. It is not interrupted by SIGINT or traps here. -/
theorem wait_exit_status {o : Opts} {s t : State} {ws : List Wake} {spec : List Char} {n : Nat} {j : Job} {st : Nat} (hr : Runs o True init s) (hd : DistinctPids s)
    (hw : ∀ w ∈ ws, w.sigint = false ∧ w.trap = none) (hn : waitTarget s spec = .ok n) (hj : jobAt s n = some j) (hl : j.legacy = false)
    (hjs : JobState j.procs j.status) (h : waitForSpec o ws spec s = some (.status st, t)) :
    ∃ ws₁ ws₂ k, ws = ws₁ ++ ws₂ ∧ jobAt (doWait s (ws₁.flatMap Wake.events)) n = some k ∧ (k.status = .done ∨ (o.jobControl = true ∧ k.status = .stopped)) ∧
      (∀ a b k, ws₁ = a ++ b → b ≠ [] → jobAt (doWait s (a.flatMap Wake.events)) n = some k → ¬(k.status = .done ∨ (o.jobControl = true ∧ k.status = .stopped))) ∧
      ExitStatus o.pipefail (k.procs.map Process.code) st := by
  obtain ⟨hi, _⟩ := current_job_valid hr
  have hn0 := Idle.ne_zero hi hj
  have hlt := jobAt_lt hj
  simp only [waitForSpec, hn] at h
  rw [if_neg (by omega), if_neg hn0, getJob_eq, hj] at h
  simp only [hl, Bool.false_eq_true, if_false, Option.bind_eq_bind] at h
  cases h1 : waitForJob o n o.jobControl o.jobControl true ws s with
  | none => rw [h1] at h; cases h
  | some p =>
    rw [h1] at h
    simp only [Option.bind_some] at h
    obtain ⟨g0, ws₁, ws₂, l, g1, g2, g3, g4, g5⟩ := waitForJob_track (fun w hw' => ⟨by rw [(hw w hw').1]; simp, .inr (hw w hw').2⟩) hd hj hl h1
    rw [g0, if_neg (by simp), getJob_eq, g2] at h
    simp only [Option.bind_some] at h
    cases he : l.exitStatus o.pipefail with
    | none => rw [he] at h; cases h
    | some x =>
      rw [he] at h
      simp only [Option.bind_some] at h
      have hx : x = st := by
        split at h
        · cases h4 : printJob p.2 n false true with
          | none => rw [h4] at h; cases h
          | some q => rw [h4] at h; cases h; rfl
        · split at h
          · cases hrm : removeJob p.2 n with
            | none => rw [hrm] at h; cases h
            | some v => rw [hrm] at h; cases h; rfl
          · cases h; rfl
      subst hx
      have fin_iff : ∀ q : Status, fin o.jobControl q = true ↔ (q = .done ∨ (o.jobControl = true ∧ q = .stopped)) := by
        intro q; simp [fin]
      have hat : ∀ es, jobAt (doWait s es) n = some (es.foldl Job.on j) := fun es => by rw [doWait_jobAt hd, hj]; rfl
      refine ⟨ws₁, ws₂, (arrivals ws₁).foldl Job.on j, g1, hat _, (fin_iff _).1 (by rw [← strip_status g3]; exact g4), fun a b k hab hb hk hx => ?_, ?_⟩
      · have := g5 a b hab hb
        have hk : (arrivals a).foldl Job.on j = k := by
          have h6 := hat (arrivals a)
          rw [arrivals] at h6
          rw [h6] at hk
          exact Option.some.inj hk
        rw [hk, (fin_iff _).2 hx] at this
        cases this
      · rw [exitStatus_strip g3] at he
        have hsane : Sane ((arrivals ws₁).foldl Job.on j) := doWait_sane _ _ (runs_sane hr) n _ (hat _)
        refine exitStatus_spec hsane ?_ he
        obtain ⟨c1, c2, _⟩ := foldl_status (arrivals ws₁) j (livePids_jobAt hd hj)
        by_cases hrep : ∃ p ∈ j.procs, p.status ≠ .done ∧ reports p.pid (arrivals ws₁) ≠ []
        · rw [c2 hrep]; exact summary_spec _
        · rw [c1 fun p hp hs => by
            by_cases hx : reports p.pid (arrivals ws₁) = []
            · exact hx
            · exact absurd ⟨p, hp, hs, hx⟩ hrep]
          exact hjs

example : ∃ s, exPair = some s ∧ waitTarget s "%echo".toList = .ok 2 ∧ (jobAt s 2).any (fun j => j.legacy == false && j.status == .running) = true ∧
    (waitForSpec exOpts [⟨none, false, [⟨20, .exited 0⟩]⟩, ⟨none, false, [⟨21, .exited 7⟩]⟩] "%echo".toList s).map Prod.fst = some (.status 7) :=
  ⟨_, rfl, rfl, rfl, rfl⟩

/-! ## Notifications -/

/-- The jobs that are to be reported. -/
theorem printJob_changed {s t : State} {n : Nat} {rs : List Report} (h : printJob s n true false = some (rs, t)) (hn : n ≠ 0) :
    (rs.map Report.number = if (jobAt s n).any (fun j => j.changed && !j.nonotify) then [n] else []) ∧
    (∀ m, m ≠ n → jobAt t m = jobAt s m) ∧ (∀ k, jobAt t n = some k → k.nonotify = true ∨ k.changed = false) ∧ t.jobs.length = s.jobs.length := by
  unfold printJob at h
  rw [getJob_eq] at h
  split at h
  · rename_i hj
    cases h
    refine ⟨by simp [hj], fun _ _ => rfl, fun k hk => ?_, rfl⟩
    rw [hj] at hk; cases hk
  · rename_i j hj
    split at h
    · rename_i hc
      cases h
      simp only [Bool.true_and, Bool.or_eq_true, Bool.not_eq_true'] at hc
      refine ⟨?_, fun _ _ => rfl, fun k hk => ?_, rfl⟩
      · rw [hj]
        rcases hc with hc | hc <;> simp [hc]
      · rw [hj] at hk; cases hk; exact hc
    · rename_i hc
      simp only [Bool.true_and, Bool.or_eq_true, Bool.not_eq_true', not_or, Bool.not_eq_true, Bool.not_eq_false] at hc
      cases hdesc : j.desc with
      | none => rw [hdesc] at h; cases h
      | some d =>
        rw [hdesc] at h
        simp only [Option.bind_eq_bind, Option.bind_some, Bool.false_and, Bool.false_eq_true, if_false] at h
        cases h
        refine ⟨by rw [hj]; simp [hc], fun m hm => ?_, fun k hk => ?_, by simp [setJob]⟩
        · rw [jobAt_setJob (jobAt_lt hj), if_neg hm]
        · rw [jobAt_setJob (jobAt_lt hj), if_pos rfl] at hk
          cases hk
          exact .inr rfl

/-- The job of the number has changed and may be reported. -/
def Due (s : State) (n : Nat) : Bool := (jobAt s n).any fun j => j.changed && !j.nonotify

theorem printLoop_changed : ∀ (k i : Nat) (s t : State) (rs : List Report), i ≠ 0 → s.jobs.length ≤ i + k → printLoop (fun s i => printJob s i true false) k i s = some (rs, t) →
    rs.map Report.number = (List.range' i k).filter (Due s) ∧ (∀ m, m < i → jobAt t m = jobAt s m) ∧
    (∀ m k, i ≤ m → jobAt t m = some k → k.nonotify = true ∨ k.changed = false)
  | 0, i, s, t, rs, _, hlen, h => by
    simp only [printLoop] at h
    cases h
    refine ⟨rfl, fun _ _ => rfl, fun m k hm hk => ?_⟩
    have := jobAt_lt hk
    omega
  | k + 1, i, s, t, rs, hi, hlen, h => by
    simp only [printLoop] at h
    split at h
    · cases h1 : printJob s i true false with
      | none => rw [h1] at h; cases h
      | some p =>
        rw [h1] at h
        simp only [Option.bind_eq_bind, Option.bind_some] at h
        obtain ⟨a1, a2, a3, a4⟩ := printJob_changed h1 hi
        cases h2 : printLoop (fun s i => printJob s i true false) k (i + 1) p.2 with
        | none => rw [h2] at h; cases h
        | some q =>
          rw [h2] at h
          cases h
          obtain ⟨b1, b2, b3⟩ := printLoop_changed k (i + 1) p.2 q.2 q.1 (by omega) (by omega) h2
          refine ⟨?_, fun m hm => ?_, fun m l hm hl => ?_⟩
          · rw [List.map_append, a1, b1, List.range'_succ, List.filter_cons]
            have : (List.range' (i + 1) k).filter (Due p.2) = (List.range' (i + 1) k).filter (Due s) := by
              refine List.filter_congr fun m hm => ?_
              rw [List.mem_range'] at hm
              obtain ⟨c, _, rfl⟩ := hm
              simp only [Due]
              rw [a2 _ (by omega)]
            rw [this]
            show (if Due s i = true then [i] else []) ++ _ = _
            split <;> rfl
          · rw [b2 m (by omega), a2 m (by omega)]
          · by_cases hmi : m = i
            · subst hmi
              rw [b2 m (by omega)] at hl
              exact a3 l hl
            · exact b3 m l (by omega) hl
    · cases h
      refine ⟨?_, fun _ _ => rfl, fun m l hm hl => ?_⟩
      · symm
        rw [List.map_nil, List.filter_eq_nil_iff]
        intro m hm
        rw [List.mem_range'] at hm
        obtain ⟨c, _, rfl⟩ := hm
        simp only [Due]
        cases hj : jobAt s (i + 1 * c) with
        | none => simp
        | some j =>
          have := jobAt_lt hj
          omega
      · have := jobAt_lt hl
        omega

/-- Before a prompt, exactly the jobs whose status has changed since they were last reported are reported, each one once and in the order of their numbers, and
after that none is left to be reported. Jobs that a command is waiting for are left out. The report can always be made. -/
theorem prompt_reports_changes {o : Opts} {s : State} (hr : Runs o True init s) : ∃ out t, printAll o s = some (out, t) ∧ (out.map Report.number).Pairwise (· < ·) ∧
    (∀ n, n ∈ out.map Report.number ↔ ∃ j, jobAt s n = some j ∧ j.changed = true ∧ j.nonotify = false) ∧
    ∀ n j, jobAt t n = some j → j.nonotify = true ∨ j.changed = false := by
  obtain ⟨⟨out, t⟩, h⟩ := printAll_some o (runs_sane hr)
  refine ⟨out, t, h, ?_⟩
  obtain ⟨hi, _⟩ := current_job_valid hr
  have hi' := (applyCurstop_discipline o hi).1
  unfold printAll at h
  have hj : ∀ n, jobAt (applyCurstop o s) n = jobAt s n := jobAt_congr (applyCurstop_jobs o s)
  obtain ⟨a1, a2, a3⟩ := printLoop_changed _ _ _ _ _ (by omega) (by omega) h
  refine ⟨?_, fun n => ?_, fun n j hn => ?_⟩
  · rw [a1]
    exact List.Pairwise.filter _ (List.pairwise_lt_range' ..)
  · rw [a1, List.mem_filter, List.mem_range', Due, hj]
    constructor
    · rintro ⟨_, hd⟩
      cases hjn : jobAt s n with
      | none => rw [hjn] at hd; cases hd
      | some j =>
        rw [hjn] at hd
        simp only [Option.any_some, Bool.and_eq_true, Bool.not_eq_true'] at hd
        exact ⟨j, rfl, hd⟩
    · rintro ⟨j, hjn, hd⟩
      have h0 := Idle.ne_zero hi hjn
      have hl := jobAt_lt hjn
      rw [applyCurstop_jobs]
      exact ⟨⟨n - 1, by omega, by omega⟩, by rw [hjn]; simp [hd]⟩
  · by_cases h0 : n = 0
    · subst h0
      rw [a2 0 (by omega), Idle.zero hi'] at hn
      cases hn
    · exact a3 n j (by omega) hn

example : ∃ s, exPair = some s ∧ (printAll exOpts s).map (fun x => x.1.map Report.number) = some [1, 2] ∧
    (do let (_, t) ← printAll exOpts s; let (out, _) ← printAll exOpts (doWait t [⟨21, .exited 0⟩, ⟨10, .signaled 9⟩]); some out) =
      some [⟨1, '-', .killed 9, "sleep 1".toList⟩] := ⟨_, rfl, rfl, rfl⟩

end Yash.Job
