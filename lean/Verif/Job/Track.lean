import Verif.Job.Settle
/-!
# The status of processes and jobs
-/
set_option autoImplicit false

namespace Yash.Job

open Spec

/-! ## One report -/

/-- What a report does to a process. -/
def Process.on (p : Process) (e : Event) : Process := if p.isFor e.pid then { p with code := some e.status, status := e.status.toStatus } else p

/-- What a report does to a job. -/
def Job.on (j : Job) (e : Event) : Job := if j.procs.any (·.isFor e.pid) then updateJob e j else j

/-- The IDs of the processes that have not ended. -/
def livePids (ps : List Process) : List Nat := (ps.filter fun p => p.status ≠ .done).map Process.pid

/-- The same for a list of jobs. -/
def liveAll (js : List (Option Job)) : List Nat := js.flatMap fun
  | some j => livePids j.procs
  | none => []

theorem isFor_iff (p : Process) (pid : Nat) : p.isFor pid = true ↔ p.pid = pid ∧ p.status ≠ .done := by
  simp [Process.isFor]

theorem any_isFor (ps : List Process) (pid : Nat) : ps.any (·.isFor pid) = true ↔ pid ∈ livePids ps := by
  simp only [List.any_eq_true, isFor_iff, livePids, List.mem_map, List.mem_filter, decide_eq_true_eq]
  constructor
  · rintro ⟨p, hp, h1, h2⟩; exact ⟨p, ⟨hp, h2⟩, h1⟩
  · rintro ⟨p, ⟨hp, h2⟩, h1⟩; exact ⟨p, hp, h1, h2⟩

theorem on_of_not {p : Process} {e : Event} (h : p.isFor e.pid = false) : p.on e = p := by simp [Process.on, h]

theorem map_on_of_not {ps : List Process} {e : Event} (h : e.pid ∉ livePids ps) : ps.map (·.on e) = ps := by
  rw [← any_isFor] at h
  simp only [Bool.not_eq_true, List.any_eq_false] at h
  have : ps.map (·.on e) = ps.map id := List.map_congr_left fun p hp => on_of_not (by simpa using h p hp)
  simpa using this

theorem livePids_cons (p : Process) (ps : List Process) : livePids (p :: ps) = if p.status = .done then livePids ps else p.pid :: livePids ps := by
  by_cases h : p.status = .done <;> simp [livePids, h]

theorem updateProcs_eq (e : Event) : ∀ ps : List Process, (livePids ps).Nodup → updateProcs e ps = ps.map (·.on e)
  | [], _ => rfl
  | p :: ps, h => by
    rw [livePids_cons] at h
    simp only [updateProcs, List.map_cons]
    by_cases hp : p.isFor e.pid = true
    · rw [if_pos hp]
      have hd := (isFor_iff p e.pid).1 hp
      rw [if_neg hd.2, List.nodup_cons, hd.1] at h
      rw [map_on_of_not h.1]
      simp [Process.on, hp]
    · rw [if_neg hp, on_of_not (by simpa using hp)]
      have : (livePids ps).Nodup := by
        split at h
        · exact h
        · exact (List.nodup_cons.1 h).2
      rw [updateProcs_eq e ps this]

theorem jobOn_procs {j : Job} (e : Event) (h : (livePids j.procs).Nodup) : (j.on e).procs = j.procs.map (·.on e) := by
  unfold Job.on
  split
  · exact updateProcs_eq e _ h
  · rename_i hn
    rw [any_isFor] at hn
    exact (map_on_of_not hn).symm

theorem jobOn_of_not {j : Job} {e : Event} (h : e.pid ∉ livePids j.procs) : j.on e = j := by
  unfold Job.on
  rw [← any_isFor] at h
  rw [if_neg h]

theorem map_jobOn_of_not {js : List (Option Job)} {e : Event} (h : e.pid ∉ liveAll js) : js.map (Option.map (·.on e)) = js := by
  have : js.map (Option.map (·.on e)) = js.map id := List.map_congr_left fun x hx => by
    cases x with
    | none => rfl
    | some j =>
      simp only [Option.map_some, id]
      rw [jobOn_of_not]
      intro hm
      exact h (List.mem_flatMap.2 ⟨some j, hx, hm⟩)
  simpa using this

theorem updateJobs_eq (e : Event) : ∀ js : List (Option Job), (liveAll js).Nodup → updateJobs e js = js.map (Option.map (·.on e))
  | [], _ => rfl
  | none :: js, h => by
    simp only [updateJobs, List.map_cons, Option.map_none]
    rw [updateJobs_eq e js (by simpa [liveAll] using h)]
  | some j :: js, h => by
    have h' : (livePids j.procs ++ liveAll js).Nodup := by simpa [liveAll] using h
    rw [List.nodup_append] at h'
    simp only [updateJobs, List.map_cons, Option.map_some]
    split
    · rename_i hh
      have hm := (any_isFor _ _).1 hh
      rw [map_jobOn_of_not fun hx => h'.2.2 _ hm _ hx rfl]
      simp [Job.on, hh]
    · rename_i hh
      rw [updateJobs_eq e js h'.2.1]
      simp [Job.on, hh]

theorem livePids_on (e : Event) : ∀ ps : List Process, List.Sublist (livePids (ps.map (·.on e))) (livePids ps)
  | [] => List.Sublist.refl _
  | p :: ps => by
    have ih := livePids_on e ps
    rw [List.map_cons, livePids_cons, livePids_cons]
    by_cases hp : p.isFor e.pid = true
    · have hd := (isFor_iff p e.pid).1 hp
      rw [if_neg hd.2]
      split
      · exact ih.trans (List.sublist_cons_self ..)
      · have : (p.on e).pid = p.pid := by unfold Process.on; split <;> rfl
        rw [this]
        exact ih.cons_cons _
    · rw [on_of_not (by simpa using hp)]
      split
      · exact ih
      · exact ih.cons_cons _

theorem liveAll_on (e : Event) : ∀ js : List (Option Job), (liveAll js).Nodup → List.Sublist (liveAll (js.map (Option.map (·.on e)))) (liveAll js)
  | [], _ => List.Sublist.refl _
  | none :: js, h => by
    have := liveAll_on e js (by simpa [liveAll] using h)
    simpa [liveAll] using this
  | some j :: js, h => by
    have h' : (livePids j.procs ++ liveAll js).Nodup := by simpa [liveAll] using h
    rw [List.nodup_append] at h'
    have h1 := liveAll_on e js h'.2.1
    have h2 := livePids_on e j.procs
    rw [← jobOn_procs e h'.1] at h2
    have := h2.append h1
    simpa [liveAll] using this

theorem distinct_iff (s : State) : DistinctPids s ↔ (liveAll s.jobs).Nodup := by
  unfold DistinctPids liveAll
  have : (fun (x : Option Job) => match x with
    | some j => List.map Process.pid (List.filter (fun p => decide (p.status ≠ Status.done)) j.procs)
    | none => []) = (fun x => match x with
    | some j => livePids j.procs
    | none => []) := by
    funext x
    cases x <;> rfl
  first
    | rw [this]
    | rfl

theorem livePids_nodup : ∀ {js : List (Option Job)} {j : Job}, (liveAll js).Nodup → some j ∈ js → (livePids j.procs).Nodup
  | none :: js, j, h, hm => by
    rcases List.mem_cons.1 hm with h0 | hm
    · cases h0
    · exact livePids_nodup (js := js) (by simpa [liveAll] using h) hm
  | some k :: js, j, h, hm => by
    have h' : (livePids k.procs ++ liveAll js).Nodup := by simpa [liveAll] using h
    rw [List.nodup_append] at h'
    rcases List.mem_cons.1 hm with h0 | hm
    · cases h0; exact h'.1
    · exact livePids_nodup h'.2.1 hm

/-! ## Many reports -/

theorem foldl_updateJobs : ∀ (es : List Event) (js : List (Option Job)), (liveAll js).Nodup →
    es.foldl (fun js e => updateJobs e js) js = js.map (Option.map fun j => es.foldl Job.on j) ∧ (liveAll (es.foldl (fun js e => updateJobs e js) js)).Nodup
  | [], js, h => by
    refine ⟨?_, h⟩
    simp only [List.foldl_nil]
    have : (fun j : Job => j) = id := rfl
    simp [this]
  | e :: es, js, h => by
    simp only [List.foldl_cons]
    rw [updateJobs_eq e js h]
    obtain ⟨h1, h2⟩ := foldl_updateJobs es _ ((liveAll_on e js h).nodup h)
    refine ⟨?_, h2⟩
    rw [h1, List.map_map]
    refine List.map_congr_left fun x _ => ?_
    cases x <;> rfl

theorem doWait_jobAt {s : State} (hd : DistinctPids s) (es : List Event) (n : Nat) : jobAt (doWait s es) n = (jobAt s n).map fun j => es.foldl Job.on j := by
  rw [jobAt_elem, jobAt_elem]
  simp only [doWait]
  rw [(foldl_updateJobs es s.jobs ((distinct_iff s).1 hd)).1]
  simp only [elem, List.getElem?_map]
  cases s.jobs[n]? with
  | none => rfl
  | some x => cases x <;> rfl

theorem doWait_distinct {s : State} (hd : DistinctPids s) (es : List Event) : DistinctPids (doWait s es) := by
  rw [distinct_iff] at *
  exact (foldl_updateJobs es s.jobs hd).2

theorem livePids_jobAt {s : State} (hd : DistinctPids s) {n : Nat} {j : Job} (hj : jobAt s n = some j) : (livePids j.procs).Nodup :=
  livePids_nodup ((distinct_iff s).1 hd) (mem_iff_jobAt.2 ⟨n, hj⟩)

theorem foldl_jobOn_procs : ∀ (es : List Event) (j : Job), (livePids j.procs).Nodup → (es.foldl Job.on j).procs = j.procs.map fun p => es.foldl Process.on p
  | [], j, _ => by
    simp only [List.foldl_nil]
    have : (fun p : Process => p) = id := rfl
    simp [this]
  | e :: es, j, h => by
    simp only [List.foldl_cons]
    have hp := jobOn_procs e h
    rw [foldl_jobOn_procs es (j.on e) (by rw [hp]; exact (livePids_on e j.procs).nodup h), hp, List.map_map]
    rfl

theorem foldl_on_done : ∀ (es : List Event) (p : Process), p.status = .done → es.foldl Process.on p = p
  | [], _, _ => rfl
  | e :: es, p, h => by
    simp only [List.foldl_cons]
    rw [on_of_not (by simp [Process.isFor, h])]
    exact foldl_on_done es p h

theorem toStatus_eq (w : WaitStatus) : w.toStatus = stateOf w := by cases w <;> rfl

theorem after_cons (p : Process) (r : WaitStatus) (rs : List WaitStatus) :
    Process.after p (r :: rs) = Process.after { p with status := stateOf r, code := some r } rs := by
  unfold Process.after
  cases h : rs.getLast? with
  | none =>
    have : rs = [] := by simpa using h
    subst this
    rfl
  | some x =>
    rw [List.getLast?_cons, h]
    rfl

theorem foldl_on_live : ∀ (es : List Event) (p : Process), p.status ≠ .done → es.foldl Process.on p = Process.after p (reports p.pid es)
  | [], _, _ => rfl
  | e :: es, p, h => by
    simp only [List.foldl_cons, reports]
    by_cases hp : e.pid = p.pid
    · rw [if_pos hp]
      have he : p.on e = { p with code := some e.status, status := e.status.toStatus } := by
        unfold Process.on
        rw [if_pos ((isFor_iff _ _).2 ⟨hp.symm, h⟩)]
      rw [he]
      by_cases hend : Ended e.status = true
      · rw [if_pos hend, foldl_on_done]
        · simp only [Process.after, List.getLast?_singleton, toStatus_eq]
        · cases hs : e.status <;> rw [hs] at hend <;> simp_all [Ended, WaitStatus.toStatus]
      · rw [if_neg hend, foldl_on_live es _ (by cases hs : e.status <;> rw [hs] at hend <;> simp_all [Ended, WaitStatus.toStatus]), after_cons, toStatus_eq]
    · rw [if_neg hp, on_of_not, foldl_on_live es p h]
      rw [← Bool.not_eq_true, isFor_iff]
      exact fun hh => hp hh.1.symm

/-! ## Jobs -/

theorem summary_spec (ps : List Process) : JobState ps (summary ps) := by
  unfold summary JobState
  split
  · rename_i h
    rw [List.any_eq_true] at h
    obtain ⟨p, hp, h⟩ := h
    exact .inl ⟨rfl, p, hp, by simpa using h⟩
  · rename_i h
    simp only [Bool.not_eq_true, List.any_eq_false] at h
    split
    · rename_i h'
      rw [List.any_eq_true] at h'
      obtain ⟨p, hp, h'⟩ := h'
      exact .inr (.inl ⟨rfl, fun q hq => by simpa using h q hq, p, hp, by simpa using h'⟩)
    · rename_i h'
      simp only [Bool.not_eq_true, List.any_eq_false] at h'
      refine .inr (.inr ⟨rfl, fun p hp => ?_⟩)
      have h1 := h p hp
      have h2 := h' p hp
      cases hs : p.status <;> simp_all

theorem foldl_status (es : List Event) : ∀ (j : Job), (livePids j.procs).Nodup →
    ((∀ p ∈ j.procs, p.status ≠ .done → reports p.pid es = []) → es.foldl Job.on j = j) ∧
    ((∃ p ∈ j.procs, p.status ≠ .done ∧ reports p.pid es ≠ []) → (es.foldl Job.on j).status = summary (es.foldl Job.on j).procs) ∧
    ((es.foldl Job.on j).changed = false → j.changed = false ∧ (es.foldl Job.on j).status = j.status) := by
  induction es with
  | nil => exact fun j _ => ⟨fun _ => rfl, fun ⟨p, _, _, h⟩ => absurd rfl h, fun h => ⟨h, rfl⟩⟩
  | cons e es ih =>
    intro j hn
    simp only [List.foldl_cons]
    have hn' : (livePids (j.on e).procs).Nodup := by
      rw [jobOn_procs e hn]
      exact (livePids_on e j.procs).nodup hn
    obtain ⟨i1, i2, i3⟩ := ih (j.on e) hn'
    by_cases hh : e.pid ∈ livePids j.procs
    · have hon : j.on e = updateJob e j := by
        unfold Job.on
        rw [if_pos ((any_isFor _ _).2 hh)]
      have hsum : (j.on e).status = summary (j.on e).procs := by rw [hon]; rfl
      refine ⟨fun h => ?_, fun _ => ?_, fun h => ?_⟩
      · obtain ⟨p, hp, h12⟩ := List.any_eq_true.1 ((any_isFor _ _).2 hh)
        obtain ⟨h1, h2⟩ := (isFor_iff _ _).1 h12
        have := h p hp h2
        simp only [reports, h1, if_true] at this
        split at this <;> cases this
      · by_cases hx : ∃ p ∈ (j.on e).procs, p.status ≠ .done ∧ reports p.pid es ≠ []
        · exact i2 hx
        · have : List.foldl Job.on (j.on e) es = j.on e := i1 fun p hp hs => by
            by_cases hr : reports p.pid es = []
            · exact hr
            · exact absurd ⟨p, hp, hs, hr⟩ hx
          rw [this]
          exact hsum
      · obtain ⟨h1, h2⟩ := i3 h
        rw [h2]
        rw [hon] at h1 ⊢
        simp only [updateJob, Bool.or_eq_false_iff, bne_eq_false_iff_eq] at h1
        exact ⟨h1.1, h1.2⟩
    · rw [jobOn_of_not hh] at i1 i2 i3 ⊢
      have hr : ∀ p ∈ j.procs, p.status ≠ .done → reports p.pid (e :: es) = reports p.pid es := by
        intro p hp hs
        simp only [reports]
        rw [if_neg]
        intro he
        apply hh
        rw [← any_isFor, List.any_eq_true]
        exact ⟨p, hp, (isFor_iff _ _).2 ⟨he.symm, hs⟩⟩
      refine ⟨fun h => i1 fun p hp hs => by rw [← hr p hp hs]; exact h p hp hs, fun ⟨p, hp, hs, h⟩ => i2 ⟨p, hp, hs, by rw [← hr p hp hs]; exact h⟩, i3⟩

/-! ## Exit statuses -/

theorem calcStatus_eq (w : WaitStatus) : calcStatus w = exitStatusOf w := by cases w <;> simp [calcStatus, exitStatusOf, Nat.add_comm]

end Yash.Job
