import Verif.Job.Runs
/-!
# The properties of the list of jobs
-/
set_option autoImplicit false

namespace Yash.Job

open Spec

/-! ## Child processes do not change which jobs there are -/

theorem updateProcs_pids (e : Event) : ∀ ps : List Process, (updateProcs e ps).map Process.pid = ps.map Process.pid
  | [] => rfl
  | p :: ps => by
    simp only [updateProcs]
    split
    · rfl
    · simp [updateProcs_pids e ps]

theorem updateProcs_names (e : Event) : ∀ ps : List Process, (updateProcs e ps).map Process.name = ps.map Process.name
  | [] => rfl
  | p :: ps => by
    simp only [updateProcs]
    split
    · rfl
    · simp [updateProcs_names e ps]

theorem Spec.SameJob.refl (j : Job) : SameJob j j := ⟨rfl, rfl, rfl, rfl⟩
theorem Spec.SameJob.trans {i j k : Job} (h : SameJob i j) (h' : SameJob j k) : SameJob i k :=
  ⟨h.key.trans h'.key, h.pgid.trans h'.pgid, h.pids.trans h'.pids, h.names.trans h'.names⟩
theorem Spec.SameJob.symm {i j : Job} (h : SameJob i j) : SameJob j i := ⟨h.key.symm, h.pgid.symm, h.pids.symm, h.names.symm⟩

theorem updateJob_same (e : Event) (j : Job) : SameJob j (updateJob e j) := ⟨rfl, rfl, (updateProcs_pids _ _).symm, (updateProcs_names _ _).symm⟩

theorem updateJobs_elem (e : Event) : ∀ (js : List (Option Job)) (n : Nat),
    elem (updateJobs e js) n = elem js n ∨ ∃ j, elem js n = some j ∧ elem (updateJobs e js) n = some (updateJob e j)
  | [], n => .inl rfl
  | none :: js, n => by
    cases n with
    | zero => exact .inl rfl
    | succ n => simpa [updateJobs, elem] using updateJobs_elem e js n
  | some j :: js, n => by
    simp only [updateJobs]
    split
    · cases n with
      | zero => exact .inr ⟨j, rfl, rfl⟩
      | succ n => exact .inl rfl
    · cases n with
      | zero => exact .inl rfl
      | succ n => simpa [elem] using updateJobs_elem e js n

/-- The jobs are the same ones, with the same numbers. -/
def SameJobs (s t : State) : Prop :=
  (∀ n, (jobAt s n = none ↔ jobAt t n = none)) ∧ ∀ n j k, jobAt s n = some j → jobAt t n = some k → SameJob j k

theorem updateJobs_same (e : Event) (s : State) : SameJobs s { s with jobs := updateJobs e s.jobs } := by
  constructor
  · intro n
    rw [jobAt_elem, jobAt_elem]
    rcases updateJobs_elem e s.jobs n with h | ⟨j, h1, h2⟩
    · rw [h]
    · rw [h1, h2]; simp
  · intro n j k hj hk
    rw [jobAt_elem] at hj hk
    rcases updateJobs_elem e s.jobs n with h | ⟨j', h1, h2⟩
    · simp only at hk
      rw [h, hj] at hk
      cases hk
      exact SameJob.refl _
    · simp only at hk
      rw [h2] at hk
      rw [h1] at hj
      cases hk; cases hj
      exact updateJob_same e _

theorem SameJobs.refl (s : State) : SameJobs s s := ⟨fun _ => Iff.rfl, fun n j k h1 h2 => by rw [h1] at h2; cases h2; exact SameJob.refl _⟩

theorem SameJobs.trans {s t u : State} (h : SameJobs s t) (h' : SameJobs t u) : SameJobs s u := by
  refine ⟨fun n => (h.1 n).trans (h'.1 n), fun n j k hj hk => ?_⟩
  cases ht : jobAt t n with
  | none =>
    rw [(h.1 n).2 ht] at hj; cases hj
  | some i => exact (h.2 n j i hj ht).trans (h'.2 n i k ht hk)

theorem doWait_same (s : State) (es : List Event) : SameJobs s (doWait s es) := by
  unfold doWait
  induction es generalizing s with
  | nil => exact SameJobs.refl s
  | cons e es ih =>
    simp only [List.foldl_cons]
    exact (updateJobs_same e s).trans (ih { s with jobs := updateJobs e s.jobs })

theorem SameJobs.present {s t : State} (h : SameJobs s t) (n : Nat) : Present s n ↔ Present t n := by
  have := h.1 n
  unfold Present
  revert this
  cases jobAt s n <;> cases jobAt t n <;> simp

theorem updateJobs_length (e : Event) : ∀ js, (updateJobs e js).length = js.length
  | [] => rfl
  | none :: js => by simp [updateJobs, updateJobs_length e js]
  | some j :: js => by
    simp only [updateJobs]
    split
    · rfl
    · simp [updateJobs_length e js]

theorem doWait_length (s : State) (es : List Event) : (doWait s es).jobs.length = s.jobs.length := by
  unfold doWait
  induction es generalizing s with
  | nil => rfl
  | cons e es ih =>
    simp only [List.foldl_cons]
    have := ih { s with jobs := updateJobs e s.jobs }
    simp only at this
    rw [this, updateJobs_length]

/-! ## The current job is always valid -/

theorem findNext_valid (s : State) (excl : Nat) : findNext s excl = 0 ∨ (Present s (findNext s excl) ∧ findNext s excl ≠ excl) := by
  unfold findNext
  split
  · rename_i h
    simp only [Bool.and_eq_true, bne_iff_ne, isStopped_iff] at h
    exact .inr ⟨stopped_present h.2, h.1⟩
  · simp only
    rcases scanDown_spec (fun i => i != excl && isStopped (getJob s i)) s.jobs.length with ⟨h1, h2⟩ | ⟨h1, h2, h3, h4⟩
    · rw [h1, if_neg (by simp)]
      rcases scanDown_spec (fun i => i != excl && (getJob s i).isSome) s.jobs.length with ⟨g1, g2⟩ | ⟨g1, g2, g3, g4⟩
      · exact .inl g1
      · simp only [Bool.and_eq_true, bne_iff_ne, isSome_iff] at g3
        exact .inr ⟨g3.2, g3.1⟩
    · rw [if_pos (by simp; omega)]
      simp only [Bool.and_eq_true, bne_iff_ne, isStopped_iff] at h3
      exact .inr ⟨stopped_present h3.2, h3.1⟩

theorem setCurrent_valid (s : State) (n : Nat) : Valid (setCurrent s n) := by
  have hp : ∀ m, Present (setCurrent s n) m ↔ Present s m := exists_congr' rfl
  rw [setCurrent_eq] at hp ⊢
  constructor <;> simp only [hp]
  · unfold newCurrent
    split
    · exact .inr (unfit_iff.1 (by simpa using ‹(!_) = true›)).1
    · split
      · exact .inr (unfit_iff.1 (by simpa using ‹(!_) = true›)).1
      · split
        · exact .inr (unfit_iff.1 (by simpa using ‹(!_) = true›)).1
        · exact (findNext_valid s 0).imp id And.left
  · generalize newCurrent s n = c
    unfold newPrevious
    generalize (if c != s.current then s.current else s.previous) = p
    simp only
    have hfit : ∀ m, (!(unfit s (decide (stoppedCount s > 1)) m || m == c)) = true → Present s m := by
      intro m hm
      simp only [Bool.not_or, Bool.and_eq_true, Bool.not_eq_true'] at hm
      exact (unfit_iff.1 hm.1).1
    split
    · exact .inr (hfit _ ‹_›)
    · split
      · exact .inr (hfit _ ‹_›)
      · exact (findNext_valid s c).imp id And.left
  · generalize newCurrent s n = c
    intro hc
    unfold newPrevious
    generalize (if c != s.current then s.current else s.previous) = p
    simp only
    have hfit : ∀ m, (!(unfit s (decide (stoppedCount s > 1)) m || m == c)) = true → m ≠ c := by
      intro m hm
      simp only [Bool.not_or, Bool.and_eq_true, Bool.not_eq_true', beq_eq_false_iff_ne, ne_eq] at hm
      exact hm.2
    split
    · exact hfit _ ‹_›
    · split
      · exact hfit _ ‹_›
      · rcases findNext_valid s c with h | h
        · rw [h]; exact fun h => hc h.symm
        · exact h.2

theorem valid_of_present {s t : State} (hc : t.current = s.current) (hp : t.previous = s.previous) (h : ∀ n, Present s n → Present t n) (hv : Valid s) : Valid t := by
  obtain ⟨h1, h2, h3⟩ := hv
  constructor
  · rw [hc]; exact h1.imp id (h _)
  · rw [hp]; exact h2.imp id (h _)
  · rw [hc, hp]; exact h3

theorem valid_closed : Closed (fun s t => Valid s → Valid t) where
  refl _ h := h
  trans h h' x := h' (h x)
  cur s n _ := setCurrent_valid s n
  upd {s n j j'} hj _ _ _ _ hv := by
    refine valid_of_present (s := s) rfl rfl (fun m hm => ?_) hv
    obtain ⟨k, hk⟩ := hm
    unfold Present
    rw [jobAt_setJob (jobAt_lt hj)]
    split
    · exact ⟨_, rfl⟩
    · exact ⟨k, hk⟩
  rem h _ := by
    obtain ⟨_, rfl⟩ := removeJob_some h
    exact setCurrent_valid _ _
  ev s es hv := valid_of_present (s := s) rfl rfl (fun m => ((doWait_same s es).present m).1) hv
  all s _ := ⟨.inl rfl, .inl rfl, fun h => absurd rfl h⟩
  neg s _ := ⟨.inl rfl, .inl rfl, fun h => absurd rfl h⟩

theorem idle_closed : Closed (fun s t => Idle s → Idle t) where
  refl _ h := h
  trans h h' x := h' (h x)
  cur s n h := h
  upd {s n j j'} hj _ _ _ _ h := idle_setJob h (Idle.ne_zero h hj)
  rem h hi := removeJob_idle h (.inr hi)
  ev s es h := by
    rw [idle_iff] at *
    have hl := doWait_length s es
    have h0 : 0 < s.jobs.length := by
      cases hs : s.jobs with
      | nil => rw [hs] at h; cases h
      | cons a l => simp
    have h1 : jobAt (doWait s es) 0 = none := ((doWait_same s es).1 0).1 (by simp [jobAt, h])
    rw [jobAt_elem, elem] at h1
    rw [List.getElem?_eq_getElem (by omega)] at h1 ⊢
    simpa using h1
  all s h := by
    rw [idle_iff] at *
    show (trim _).jobs[0]? = _
    rw [trim_head]
    simp [h]
  neg s h := by
    rw [idle_iff] at *
    simp [neglectAll, h]

/-! ## Where jobs are -/

/-- Every job of the second state is a job of the first state, with the same number. -/
def Kept (s t : State) : Prop := ∀ n k, jobAt t n = some k → ∃ j, jobAt s n = some j ∧ SameJob j k

theorem kept_of_eq {s t : State} (h : ∀ n, jobAt t n = none ∨ jobAt t n = jobAt s n) : Kept s t := by
  intro n k hk
  rcases h n with h | h
  · rw [h] at hk; cases hk
  · exact ⟨k, by rw [← h]; exact hk, SameJob.refl k⟩

theorem kept_closed : Closed Kept where
  refl s := kept_of_eq fun _ => .inr rfl
  trans h h' n k hk := by
    obtain ⟨j, hj, hjk⟩ := h' n k hk
    obtain ⟨i, hi, hij⟩ := h n j hj
    exact ⟨i, hi, hij.trans hjk⟩
  cur s n := kept_of_eq fun _ => .inr rfl
  upd {s n j j'} hj h1 h2 h3 _ m k hk := by
    rw [jobAt_setJob (jobAt_lt hj)] at hk
    split at hk
    · rename_i hm
      subst hm
      cases hk
      exact ⟨j, hj, ⟨h1.symm, h2.symm, by rw [h3], by rw [h3]⟩⟩
    · exact ⟨k, hk, SameJob.refl k⟩
  rem h := kept_of_eq fun m => by
    rw [jobAt_removeJob h]
    split
    · exact .inl rfl
    · exact .inr rfl
  ev s es n k hk := by
    cases hj : jobAt s n with
    | none => rw [((doWait_same s es).1 n).1 hj] at hk; cases hk
    | some j => exact ⟨j, rfl, (doWait_same s es).2 n j k hj hk⟩
  all s := kept_of_eq fun n => .inl (by
    show jobAt (trim _) n = none
    rw [jobAt_trim, jobAt_elem, elem]
    simp only [List.getElem?_map]
    cases s.jobs[n]? <;> rfl)
  neg s n k hk := by
    rw [jobAt_elem, elem] at hk
    simp only [neglectAll, List.getElem?_map] at hk
    unfold jobAt
    cases h : s.jobs[n]? with
    | none => rw [h] at hk; cases hk
    | some x =>
      rw [h] at hk
      cases x with
      | none => cases hk
      | some j =>
        cases hk
        exact ⟨j, rfl, ⟨rfl, rfl, rfl, rfl⟩⟩

theorem setActive_some {s t : State} {j : Job} (h : setActive s j = some t) : Idle s ∧ ∃ js, s.jobs = none :: js ∧ t = { s with jobs := some j :: js } := by
  unfold setActive at h
  split at h
  · rename_i js hjs
    cases h
    exact ⟨⟨js, hjs⟩, js, hjs, rfl⟩
  · cases h

theorem jobAt_setActive {s t : State} {j : Job} (h : setActive s j = some t) (n : Nat) : jobAt t n = if n = 0 then some j else jobAt s n := by
  obtain ⟨_, js, hjs, rfl⟩ := setActive_some h
  rw [jobAt_elem, jobAt_elem, hjs]
  cases n <;> rfl

theorem startAsync_some {o : Opts} {key : Nat} {cs : List (Option Nat × List Char)} {s t : State} (h : startAsync o key cs s = some t) :
    ∃ u, setActive s (newJob key o cs) = some u ∧ addJob u o.curasync = some t := by
  unfold startAsync at h
  cases h1 : setActive s (newJob key o cs) with
  | none => rw [h1] at h; cases h
  | some u => rw [h1] at h; exact ⟨u, rfl, h⟩

theorem runForeground_some {o : Opts} {key : Nat} {cs : List (Option Nat × List Char)} {ws : List Wake} {s t : State} {st : Nat}
    (h : runForeground o key cs ws s = some (st, t)) : ∃ u v sig j, setActive s (newJob key o cs) = some u ∧
      waitForJob o 0 o.jobControl false false ws u = some (sig, v) ∧ getJob v 0 = some j ∧ j.exitStatus o.pipefail = some st ∧
      (j.status = .done ∧ removeJob v 0 = some t ∨ j.status ≠ .done ∧ addJob v true = some t) := by
  unfold runForeground at h
  cases h1 : setActive s (newJob key o cs) with
  | none => rw [h1] at h; cases h
  | some u =>
    rw [h1] at h
    simp only [Option.bind_eq_bind, Option.bind_some] at h
    cases h2 : waitForJob o 0 o.jobControl false false ws u with
    | none => rw [h2] at h; cases h
    | some p =>
      rw [h2] at h
      simp only [Option.bind_some] at h
      cases h3 : getJob p.2 0 with
      | none => rw [h3] at h; cases h
      | some j =>
        rw [h3] at h
        simp only [Option.bind_some] at h
        cases h4 : j.exitStatus o.pipefail with
        | none => rw [h4] at h; cases h
        | some x =>
          rw [h4] at h
          simp only [Option.bind_some] at h
          refine ⟨u, p.2, p.1, j, rfl, h2, h3, ?_⟩
          split at h
          · rename_i hd
            cases h5 : removeJob p.2 0 with
            | none => rw [h5] at h; cases h
            | some v =>
              rw [h5] at h
              cases h
              exact ⟨h4, .inl ⟨by simpa using hd, rfl⟩⟩
          · rename_i hd
            cases h5 : addJob p.2 true with
            | none => rw [h5] at h; cases h
            | some v =>
              rw [h5] at h
              cases h
              exact ⟨h4, .inr ⟨by simpa using hd, rfl⟩⟩

theorem addJob_valid {s t : State} {b : Bool} (h : addJob s b = some t) : Valid t := by
  obtain ⟨_, _, _, _, _, _, _, _, _, _, u, _, _, _, he⟩ := addJob_spec h
  rw [he]
  exact setCurrent_valid _ _

theorem removeJob_valid {s t : State} {n : Nat} (h : removeJob s n = some t) : Valid t := by
  obtain ⟨_, rfl⟩ := removeJob_some h
  exact setCurrent_valid _ _

theorem startAsync_ok {o : Opts} {key : Nat} {cs : List (Option Nat × List Char)} {s t : State} (h : startAsync o key cs s = some t) :
    Idle t ∧ Discipline t ∧ Valid t := by
  obtain ⟨u, _, h2⟩ := startAsync_some h
  exact ⟨(addJob_discipline h2).1, (addJob_discipline h2).2, addJob_valid h2⟩

theorem runForeground_ok {o : Opts} {key : Nat} {cs : List (Option Nat × List Char)} {ws : List Wake} {s t : State} {st : Nat}
    (h : runForeground o key cs ws s = some (st, t)) : Idle t ∧ Discipline t ∧ Valid t := by
  obtain ⟨u, v, sig, j, _, _, _, _, ⟨_, h4⟩ | ⟨_, h4⟩⟩ := runForeground_some h
  · exact ⟨removeJob_idle h4 (.inl rfl), removeJob_discipline h4 (.inl rfl), removeJob_valid h4⟩
  · exact ⟨(addJob_discipline h4).1, (addJob_discipline h4).2, addJob_valid h4⟩

end Yash.Job
