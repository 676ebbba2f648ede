import Verif.Job.TrackProps
/-!
# C59 and C60: what the shell does not guarantee

Each theorem shows that a condition of a theorem in `Props.lean` or `TrackProps.lean` is needed.
-/
set_option autoImplicit false

namespace Yash.Job

open Spec

/-- If none of the processes of a pipeline could be created, the shell waits forever, whatever is reported about other child processes: the new job is
marked as running although all its processes have ended, and no report about one of its processes can come (exec.c:440-465). -/
theorem no_process_hangs {o : Opts} {s : State} {key : Nat} {cs : List (Option Nat × List Char)} {ws : List Wake} (hd : DistinctPids s)
    (hcs : ∀ c ∈ cs, c.1 = none) : runForeground o key cs ws s = none := by
  cases h : runForeground o key cs ws s with
  | none => rfl
  | some p =>
    exfalso
    obtain ⟨st, t⟩ := p
    have hnil : cs.filterMap Prod.fst = [] := by
      rw [List.filterMap_eq_nil_iff]
      exact hcs
    have hf : FreshPids s cs := ⟨by rw [hnil]; exact .nil, fun pid hpid => by rw [hnil] at hpid; cases hpid⟩
    obtain ⟨u, v, sig, j, h1, h2, h3, h4, _⟩ := runForeground_some h
    have hu0 : jobAt u 0 = some (newJob key o cs) := by rw [jobAt_setActive h1, if_pos rfl]
    obtain ⟨_, ws₁, ws₂, l, g1, g2, g3, g4, g5⟩ := waitForJob_track (fun _ _ => ⟨rfl, .inl rfl⟩) (new_distinct hd hf h1) hu0 rfl h2
    obtain ⟨n1, n2, n3⟩ := newJob_after (key := key) (o := o) hf.1 (arrivals ws₁)
    have := n3 fun c hc hs => by rw [hcs c hc] at hs; cases hs
    rw [strip_status g3, this] at g4
    simp [fin] at g4

/-- Such a job in the background is running forever. -/
theorem no_process_running_forever {o : Opts} {s t : State} {key : Nat} {cs : List (Option Nat × List Char)} {es : List Event} 
    (h : startAsync o key cs s = some t) (hcs : ∀ c ∈ cs, c.1 = none) (ht : DistinctPids t) :
    ∃ n j, jobAt t n = some j ∧ j.status = .running ∧ jobAt (doWait t es) n = some j := by
  obtain ⟨u, h1, h2⟩ := startAsync_some h
  obtain ⟨j, js, n, h3, _, h4, _⟩ := addJob_spec h2
  have hj : j = newJob key o cs := by
    have := jobAt_setActive h1 0
    rw [if_pos rfl, jobAt_elem, elem, h3] at this
    exact Option.some.inj this
  subst hj
  have hn : jobAt t n = some (newJob key o cs) := by rw [h4, if_pos rfl]
  refine ⟨n, _, hn, rfl, ?_⟩
  obtain ⟨k, h1, _, h2, _⟩ := job_status_tracked ht es hn
  rw [h1, h2]
  intro p hp hs
  rw [newJob, List.mem_map] at hp
  obtain ⟨c, hc, rfl⟩ := hp
  rw [startProcess, hcs c hc] at hs
  exact absurd rfl hs

example : ∃ t, startAsync exOpts 1 [(none, "a".toList)] init = some t ∧ (jobAt t 1).any (fun j => j.status == .running && j.procs.all (·.status == .done)) = true :=
  ⟨_, rfl, rfl⟩

/-- A single asynchronous command, and the action of a trap that removes it. -/
def exOne : Option State := startAsync exOpts 1 [(some 10, "a".toList)] init

def exDisown (s : State) : State :=
  match disown exOpts false ["%1".toList] s with
  | some (_, t) => t
  | none => s

/-- If the action of a trap that is executed during `wait %1` removes the job that is waited for, the shell uses it after it has been freed
(job.c:453-476). -/
theorem wait_uses_removed_job : ∃ s, exOne = some s ∧ waitForSpec exOpts [⟨some (15, exDisown), false, []⟩] "%1".toList s = none := ⟨_, rfl, rfl⟩

/-- The listing of `jobs` may mark two jobs as the current job: a job that has ended is removed while it is listed, another one becomes the current job
and is listed next. -/
theorem two_current_jobs : ∃ s, Runs { exOpts with curasync := false } True init s ∧
    (jobsBuiltin { exOpts with curasync := false } ⟨false, false, false⟩ [] (doWait s [⟨10, .exited 0⟩])).map (fun x => x.1.map fun r => (r.number, r.mark)) =
      some [(1, '+'), (2, '+')] :=
  ⟨_, .andThen (.async 1 [(some 10, "sleep 1".toList)] trivial rfl) (.async 2 [(some 20, "cat".toList)] trivial rfl), rfl⟩

/-- The current job need not be a stopped one if another job has stopped since the last prompt: `fg` without operands then continues a job that is
running. -/
theorem current_job_not_stopped : ∃ s, exPair = some s ∧ (doWait s [⟨10, .stopped 20⟩]).current = 2 ∧ ¬Discipline (doWait s [⟨10, .stopped 20⟩]) ∧
    (jobAt (doWait s [⟨10, .stopped 20⟩]) 2).any (fun j => j.status == .running) = true := by
  refine ⟨_, rfl, rfl, fun h => ?_, rfl⟩
  obtain ⟨j, hj, hs⟩ := h.currentStopped ⟨1, _, rfl, rfl⟩
  cases hj
  cases hs

/-- Unless the system reports that processes are continued, a job that is continued with `bg` and whose processes do not all end at once is stopped for
the shell as soon as one of them has ended. -/
theorem continued_job_looks_stopped : ∃ s, exPair = some s ∧
    (do let (st, _, t) ← fgBuiltin exOpts false [("%2".toList, true, [])] false [] (doWait s [⟨20, .stopped 20⟩, ⟨21, .stopped 20⟩])
        let k ← jobAt (doWait t [⟨20, .exited 0⟩]) 2
        some (st, (jobAt t 2).map Job.status, k.status)) = some (0, some .running, .stopped) := ⟨_, rfl, rfl⟩

end Yash.Job
