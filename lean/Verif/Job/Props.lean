import Verif.Job.Settle
/-!
# C59: job numbers, the current and the previous job, and job specifications

The examples use two background jobs, `sleep` (running) and `vi` (stopped).
-/
set_option autoImplicit false

namespace Yash.Job

open Spec

/-- Options for the examples: job control is on and the options `curasync`, `curbg` and `curstop` are set, as by default in interactive shells. -/
def exOpts : Opts := ⟨true, true, true, false, false, true, true, false⟩

def exSleep : Job := ⟨1, 10, .running, false, false, false, [⟨10, .running, none, "sleep 9".toList⟩]⟩
def exVi : Job := ⟨2, 20, .stopped, true, false, false, [⟨20, .stopped, some (.stopped 20), "vi x".toList⟩]⟩

/-- `sleep` is running and `vi` has just stopped, but the shell has not noticed yet. -/
def exState : State := ⟨[none, some exSleep, some exVi], 7, 1, 2⟩

example : Idle exState := ⟨_, rfl⟩

/-! ## The choice of the current and the previous job -/

/-- After every prompt, `jobs`, asynchronous command and pipeline in the foreground, and after every successful `fg`, `bg` and `disown`: if there
are jobs, there is a current job, which is stopped if any job is; if there are more, there is a previous job, which is another one and is stopped if
any but the current one is. This does not depend on which jobs were current and previous before, and on what has happened to the child
processes in the meantime. -/
theorem current_job_settled {o : Opts} {s t : State} (hi : Idle s) (h : Settles o s t) : Discipline t := settles hi h

/-- After a prompt, the job that has stopped is the current job. -/
example : ∃ t, Settles exOpts exState t ∧ t.current = 2 ∧ t.previous = 1 :=
  ⟨((printAll exOpts exState).getD ([], init)).2, .prompt ((printAll exOpts exState).getD ([], init)).1 (by rfl), rfl, rfl⟩

/-- Whatever happens, in the state of the shell between commands no job is in the foreground, and the numbers of the current and the previous job
are 0 or those of jobs that exist, and are different. So `fg` without operands never uses a job that has been removed. -/
theorem current_job_valid {o : Opts} {s : State} (h : Runs o True init s) : Idle s ∧ Valid s := by
  have h1 : Idle init := ⟨[], rfl⟩
  have h2 : Valid init := ⟨.inl rfl, .inl rfl, fun h => absurd rfl h⟩
  exact ⟨idle_closed.runs (fun _ _ _ _ _ h _ => (startAsync_ok h).1) (fun _ _ _ _ _ _ _ h _ => (runForeground_ok h).1) h h1,
    valid_closed.runs (fun _ _ _ _ _ h _ => (startAsync_ok h).2.2) (fun _ _ _ _ _ _ _ h _ => (runForeground_ok h).2.2) h h2⟩

/-- Without a current job, `fg`, `bg` and `disown` without operands report that there is none, and nothing happens. -/
theorem no_current_job {o : Opts} {s : State} (h : s.current = 0) (fg killed : Bool) (ws : List Wake) :
    fgBuiltin o fg [] killed ws s = some (1, [.noCurrent], s) ∧ disown o false [] s = some ([.noCurrent], s) := by
  simp [fgBuiltin, disown, h]

example : init.current = 0 := rfl

/-- The action of a trap that removes the second job. -/
def exTrap (s : State) : State :=
  match disown exOpts false ["%2".toList] s with
  | some (_, t) => t
  | none => s

theorem exTrap_runs (s : State) : Runs exOpts True s (exTrap s) := by
  unfold exTrap
  split
  · rename_i h
    exact .disown _ _ _ h
  · exact .nothing s

/-- Two asynchronous commands; `wait` is interrupted by a signal, the trap for which removes the second job. -/
def exRun : Option State := do
  let s ← startAsync exOpts 1 [(some 10, "a".toList)] init
  let s ← startAsync exOpts 2 [(some 20, "b".toList)] s
  let (_, s) ← waitAll exOpts [⟨some (15, exTrap), false, []⟩] s
  some s

example : ∃ s, exRun = some s ∧ Runs exOpts True init s ∧ s.current = 1 ∧ s.previous = 0 :=
  ⟨_, rfl, .andThen (.async 1 [(some 10, "a".toList)] trivial rfl)
    (.andThen (.async 2 [(some 20, "b".toList)] trivial rfl)
      (.waitAll [⟨some (15, exTrap), false, []⟩] 399 (.cons (fun _ _ h => by cases h; exact exTrap_runs) .nil) rfl)), rfl, rfl⟩

/-! ## Numbers -/

/-- Whatever happens, except for new jobs being started, every job that is still there has the number it had. -/
theorem job_keeps_number {o : Opts} {s t : State} (h : Runs o False s t) {n : Nat} {k : Job} (hk : jobAt t n = some k) : ∃ j, jobAt s n = some j ∧ SameJob j k :=
  kept_closed.runs (fun h => h.elim) (fun h => h.elim) h n k hk

example : ∃ t, Runs exOpts False exState t ∧ jobAt t 2 = some exVi ∧ jobAt t 1 = none ∧ t.current = 2 :=
  ⟨_, .disown false ["sl".toList] [] rfl, rfl, rfl, rfl⟩

/-- An asynchronous command always gets the least number that no job has, and all the other jobs stay as they are. -/
theorem async_job_number {o : Opts} {s : State} (hi : Idle s) (key : Nat) (cs : List (Option Nat × List Char)) : ∃ t n, startAsync o key cs s = some t ∧ LeastFree s n ∧
    (∃ j, jobAt t n = some j ∧ j.key = key ∧ j.status = .running ∧ j.procs.map Process.name = cs.map Prod.snd ∧ j.procs.map Process.pid = cs.map (·.1.getD 0)) ∧
    ∀ m, m ≠ n → jobAt t m = jobAt s m := by
  obtain ⟨js, hjs⟩ := hi
  have h1 : setActive s (newJob key o cs) = some { s with jobs := some (newJob key o cs) :: js } := by simp [setActive, hjs]
  cases h2 : addJob { s with jobs := some (newJob key o cs) :: js } o.curasync with
  | none => simp [addJob] at h2
  | some t =>
    refine ⟨t, firstEmpty (some (newJob key o cs) :: js), by simp [startAsync, h1, h2], ?_⟩
    obtain ⟨j, js', n, h3, rfl, h4, h5, h6, h7, h8, _⟩ := addJob_spec h2
    have hs := jobAt_setActive h1
    cases h3
    simp only at h4 h5 h6 h7 ⊢
    refine ⟨⟨h5, ?_, fun m hm hmn => ?_⟩, ⟨newJob key o cs, by rw [h4, if_pos rfl], rfl, rfl, ?_, ?_⟩, fun m hm => ?_⟩
    · rintro ⟨j, hj⟩
      rw [hs, if_neg (by omega)] at h6
      rw [h6] at hj
      cases hj
    · obtain ⟨j, hj⟩ := h7 m hm hmn
      rw [hs, if_neg (by omega)] at hj
      exact ⟨j, hj⟩
    · simp only [newJob, List.map_map]
      refine List.map_congr_left fun c _ => ?_
      simp only [Function.comp, startProcess]
      split <;> rfl
    · simp only [newJob, List.map_map]
      refine List.map_congr_left fun c _ => ?_
      simp only [Function.comp, startProcess]
      split <;> simp [*]
    · rw [h4, if_neg hm, hs]
      split
      · rename_i h0
        subst h0
        rw [Idle.zero ⟨js, hjs⟩]
      · rfl

example : Idle exState ∧ LeastFree exState 3 := by
  refine ⟨⟨_, rfl⟩, by omega, ?_, fun m h1 h2 => ?_⟩
  · rintro ⟨j, hj⟩
    cases hj
  · obtain rfl | rfl : m = 1 ∨ m = 2 := by omega
    · exact ⟨_, rfl⟩
    · exact ⟨_, rfl⟩

/-- A pipeline in the foreground that ends leaves the other jobs with their numbers. One that is stopped becomes the current job, with the least
number that no job has, and the other jobs keep theirs. -/
theorem foreground_job_number {o : Opts} {s t : State} {key : Nat} {cs : List (Option Nat × List Char)} {ws : List Wake} {st : Nat}
    (h : runForeground o key cs ws s = some (st, t)) :
    (∀ n, (jobAt s n = none ↔ jobAt t n = none) ∧ ∀ j k, jobAt s n = some j → jobAt t n = some k → SameJob j k) ∨
    (∃ n k, LeastFree s n ∧ jobAt t n = some k ∧ k.key = key ∧ k.status = .stopped ∧ t.current = n ∧
      ∀ m, m ≠ n → (jobAt s m = none ↔ jobAt t m = none) ∧ ∀ j k, jobAt s m = some j → jobAt t m = some k → SameJob j k) := by
  obtain ⟨u, v, sig, j, h1, h2, h3, h4, h5⟩ := runForeground_some h
  have hu := jobAt_setActive h1
  have huv := waitForJob_same h2
  have hz := Idle.zero (setActive_some h1).1
  have step : ∀ m, m ≠ 0 → (∀ x, jobAt t m = x ↔ jobAt v m = x) → (jobAt s m = none ↔ jobAt t m = none) ∧ ∀ j k, jobAt s m = some j → jobAt t m = some k → SameJob j k := by
    intro m hm hx
    have := hu m
    rw [if_neg hm] at this
    refine ⟨by rw [hx, ← this]; exact huv.1 m, fun j k hj hk => ?_⟩
    rw [hx] at hk
    rw [← this] at hj
    exact huv.2 m j k hj hk
  rw [getJob_eq] at h3
  rcases h5 with ⟨_, h5⟩ | ⟨hd, h5⟩
  · left
    have hr := jobAt_removeJob h5
    intro n
    by_cases hn : n = 0
    · subst hn
      rw [hz, hr, if_pos rfl]
      exact ⟨Iff.rfl, fun j k h => by cases h⟩
    · refine step n hn fun x => ?_
      rw [hr, if_neg hn]
  · right
    obtain ⟨k, js, n, g1, g2, g3, g4, g5, g6, g7, w, g8, g9, g10, g11⟩ := addJob_spec h5
    have hk : k = j := by
      rw [jobAt_elem, g1] at h3
      cases h3; rfl
    subst hk
    have hkey : k.key = key := by
      have h0 := hu 0
      rw [if_pos rfl] at h0
      exact (huv.2 0 _ _ h0 h3).key.symm
    have hst : k.status = .stopped := by
      cases hs : k.status with
      | running => rw [Job.exitStatus, hs] at h4; cases h4
      | stopped => rfl
      | done => exact absurd hs hd
    have hpres : ∀ m, m ≠ 0 → (Present v m ↔ Present s m) := by
      intro m hm
      rw [← huv.present m]
      unfold Present
      rw [hu, if_neg hm]
    refine ⟨n, k, ⟨g4, fun hp => ?_, fun m hm hmn => (hpres m (by omega)).1 (g6 m hm hmn)⟩, by rw [g3, if_pos rfl], hkey, hst, ?_, fun m hm => ?_⟩
    · obtain ⟨i, hi⟩ := (hpres n (by omega)).2 hp
      rw [g5] at hi; cases hi
    · rw [g11, hst, setCurrent_eq]
      have hw : jobAt w n = some k := by rw [jobAt_congr g10, g3, if_pos rfl]
      exact newCurrent_fit ⟨k, hw⟩ fun _ => ⟨k, hw, hst⟩
    · by_cases h0 : m = 0
      · subst h0
        rw [hz, g3, if_neg hm, if_pos rfl]
        exact ⟨Iff.rfl, fun j k h => by cases h⟩
      · refine step m h0 fun x => ?_
        rw [g3, if_neg hm, if_neg h0]

/-- A pipeline of two commands is stopped while a background job ends. -/
example : ∃ t, runForeground exOpts 5 [(some 30, "ls".toList), (some 31, "less".toList)] [⟨none, false, [⟨30, .exited 0⟩, ⟨10, .exited 1⟩]⟩, ⟨none, false, [⟨31, .stopped 20⟩]⟩] exState =
    some (404, t) ∧ t.current = 3 ∧ t.previous = 2 := ⟨_, rfl, rfl, rfl⟩

/-- When no job is stopped, an asynchronous command becomes the current job if the option `curasync` is set, and what was the current job becomes the
previous job. -/
theorem async_job_current {o : Opts} {s t : State} {key : Nat} {cs : List (Option Nat × List Char)} (ho : o.curasync = true)
    (hs : ∀ n, ¬Stopped s n) (hp : Present s s.current) (h : startAsync o key cs s = some t) : ¬Present s t.current ∧ Present t t.current ∧ t.previous = s.current := by
  obtain ⟨u, h1, h2⟩ := startAsync_some h
  have hu := jobAt_setActive h1
  obtain ⟨hidle, js0, hjs0, hue⟩ := setActive_some h1
  obtain ⟨j, js, n, g1, g2, g3, g4, g5, g6, g7, w, g8, g9, g10, g11⟩ := addJob_spec h2
  have hj : j = newJob key o cs := by
    have := hu 0
    rw [jobAt_elem, g1] at this
    cases this; rfl
  rw [ho, Bool.or_true, if_pos rfl] at g11
  have hw : ∀ m, jobAt w m = if m = n then some j else if m = 0 then none else jobAt u m := fun m => by rw [jobAt_congr g10, g3]
  have hns : ∀ m, ¬Stopped w m := by
    rintro m ⟨k, hk, hst⟩
    rw [hw] at hk
    split at hk
    · cases hk
      rw [hj] at hst
      cases hst
    · split at hk
      · cases hk
      · rename_i hm0
        rw [hu, if_neg hm0] at hk
        exact hs m ⟨k, hk, hst⟩
  have hc : newCurrent w n = n := newCurrent_fit ⟨j, by rw [hw, if_pos rfl]⟩ fun ⟨m, hm⟩ => absurd hm (hns m)
  have hucur : u.current = s.current := by rw [hue]
  have hs0 : s.current ≠ 0 := by
    intro h0
    obtain ⟨k, hk⟩ := hp
    rw [h0, Idle.zero hidle] at hk
    cases hk
  have hne : n ≠ s.current := by
    intro he
    obtain ⟨k, hk⟩ := hp
    rw [hu, if_neg (by omega)] at g5
    rw [← he, g5] at hk
    cases hk
  have hcur : t.current = n := by rw [g11, setCurrent_eq]; exact hc
  refine ⟨?_, ⟨j, by rw [hcur, g3, if_pos rfl]⟩, ?_⟩
  · rw [hcur]
    rintro ⟨k, hk⟩
    rw [hu, if_neg (by omega)] at g5
    rw [g5] at hk
    cases hk
  · rw [g11, setCurrent_eq]
    simp only
    rw [hc, newPrevious_old, g8, hucur]
    · rw [g8, hucur]; exact hne
    · rw [g8, hucur]
      obtain ⟨k, hk⟩ := hp
      refine ⟨k, ?_⟩
      rw [hw, if_neg (fun h => hne h.symm), if_neg hs0, hu, if_neg hs0]
      exact hk
    · rintro ⟨m, _, _, hm, _⟩
      exact absurd hm (hns m)

example : ∃ t, startAsync exOpts 5 [(some 30, "ls".toList)] ⟨[none, some exSleep], 7, 1, 0⟩ = some t ∧ t.current = 2 ∧ t.previous = 1 := ⟨_, rfl, rfl, rfl⟩

/-! ## Job specifications -/

/-- What follows `%` in an operand stands for a job exactly if it means this job and no other one: `%%`, `%+` and `%` mean the current job, `%-` the
previous job, `%n` the job of that number, `%?text` the jobs in whose names the text occurs, and `%text` the jobs whose names begin with the text. -/
theorem job_specification {o : Opts} {s : State} (hr : Runs o True init s) (t : List Char) (n : Nat) (j : Job) :
    lookup s t = .ok (n, j) ↔ jobAt s n = some j ∧ Means s t n ∧ ∀ m, Present s m → Means s t m → m = n := by
  obtain ⟨hi, hv⟩ := current_job_valid hr
  have hz := Idle.zero hi
  have hf := number_found hz hv t
  unfold lookup
  have hl : 0 < s.jobs.length := by
    obtain ⟨js, hjs⟩ := hi
    rw [hjs]; simp
  generalize hx : numberFromName s t = x at hf
  cases hf with
  | nothing h =>
    rw [if_neg (by omega), if_pos rfl]
    simp only [reduceCtorEq, false_iff]
    rintro ⟨hj, hm, _⟩
    exact h n ⟨j, hj⟩ hm
  | one h0 hj hm hu =>
    have := jobAt_lt hj
    rw [if_neg (by omega), if_neg h0, getJob_eq, hj]
    simp only [Except.ok.injEq, Prod.mk.injEq]
    constructor
    · rintro ⟨rfl, rfl⟩
      exact ⟨hj, hm, hu⟩
    · rintro ⟨hj', hm', _⟩
      have := hu n ⟨j, hj'⟩ hm'
      subst this
      rw [hj] at hj'
      cases hj'
      exact ⟨rfl, rfl⟩
  | many hab ha hb hra hrb =>
    rw [if_pos (by omega)]
    simp only [reduceCtorEq, false_iff]
    rintro ⟨_, _, hu⟩
    exact hab ((hu _ ha hra).trans (hu _ hb hrb).symm)

/-- It is an error, said to be ambiguous, if more than one job is meant, and a different error if no job is. -/
theorem job_specification_error {o : Opts} {s : State} (hr : Runs o True init s) (t : List Char) :
    (lookup s t = .error .ambiguous ↔ ∃ m n, m ≠ n ∧ Present s m ∧ Present s n ∧ Means s t m ∧ Means s t n) ∧
    (lookup s t = .error .noSuchJob ↔ ∀ n, Present s n → ¬Means s t n) := by
  obtain ⟨hi, hv⟩ := current_job_valid hr
  have hz := Idle.zero hi
  have hf := number_found hz hv t
  unfold lookup
  have hl : 0 < s.jobs.length := by
    obtain ⟨js, hjs⟩ := hi
    rw [hjs]; simp
  generalize hx : numberFromName s t = x at hf
  cases hf with
  | nothing h =>
    rw [if_neg (by omega), if_pos rfl]
    refine ⟨?_, by simpa using h⟩
    simp only [Except.error.injEq, reduceCtorEq, false_iff]
    rintro ⟨m, _, _, hp, _, hm, _⟩
    exact h m hp hm
  | one h0 hj hm hu =>
    have := jobAt_lt hj
    rw [if_neg (by omega), if_neg h0, getJob_eq, hj]
    simp only [reduceCtorEq, false_iff]
    refine ⟨?_, fun h => h _ ⟨_, hj⟩ hm⟩
    rintro ⟨a, b, hab, ha, hb, hra, hrb⟩
    exact hab ((hu _ ha hra).trans (hu _ hb hrb).symm)
  | many hab ha hb hra hrb =>
    rw [if_pos (by omega)]
    simp only [true_iff, Except.error.injEq, reduceCtorEq, false_iff]
    exact ⟨⟨_, _, hab, ha, hb, hra, hrb⟩, fun h => h _ ha hra⟩

/-- Two jobs, both of whose names contain `e`, and one of which has a name beginning with `sl`. -/
def exPair : Option State := do
  let s ← startAsync exOpts 1 [(some 10, "sleep 1".toList)] init
  startAsync exOpts 2 [(some 20, "echo a".toList), (some 21, "cat".toList)] s

example : ∃ s, exPair = some s ∧ Runs exOpts True init s ∧ (lookup s "sl".toList).map Prod.fst = .ok 1 ∧ (lookup s "".toList).map Prod.fst = .ok 2 ∧
    (lookup s "-".toList).map Prod.fst = .ok 1 ∧ (lookup s "02".toList).map Prod.fst = .ok 2 ∧ (lookup s "?| cat".toList).map Prod.fst = .ok 2 ∧
    lookup s "?e".toList = .error .ambiguous ∧ lookup s "3".toList = .error .noSuchJob :=
  ⟨_, rfl, .andThen (.async 1 [(some 10, "sleep 1".toList)] trivial rfl) (.async 2 [(some 20, "echo a".toList), (some 21, "cat".toList)] trivial rfl),
    rfl, rfl, rfl, rfl, rfl, rfl, rfl⟩

end Yash.Job
