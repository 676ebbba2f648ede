import Verif.Job.Sane
/-!
# Exit statuses of jobs
-/
set_option autoImplicit false

namespace Yash.Job

open Spec

theorem pipefailLoop_spec : ∀ (ps : List Process) (l : List WaitStatus) (st : Nat), ps.map Process.code = l.map some → pipefailLoop ps = some st →
    (st = 0 ∧ ∀ x ∈ l.map exitStatusOf, x = 0) ∨ (st ≠ 0 ∧ ∃ a b, l.map exitStatusOf = a ++ st :: b ∧ ∀ x ∈ a, x = 0)
  | [], l, st, h, h' => by
    have : l = [] := by simpa using h.symm
    subst this
    cases h'
    exact .inl ⟨rfl, fun x hx => by cases hx⟩
  | p :: ps, l, st, h, h' => by
    cases l with
    | nil => cases h
    | cons r l =>
      simp only [List.map_cons, List.cons.injEq] at h
      simp only [pipefailLoop, Process.exitStatus, h.1, Option.map_some, Option.bind_eq_bind, Option.bind_some, calcStatus_eq] at h'
      split at h'
      · rename_i hne
        cases h'
        exact .inr ⟨by simpa using hne, [], l.map exitStatusOf, rfl, fun x hx => by cases hx⟩
      · rename_i hne
        have h0 : exitStatusOf r = 0 := by simpa using hne
        rcases pipefailLoop_spec ps l st h.2 h' with ⟨h1, h2⟩ | ⟨h1, a, b, h2, h3⟩
        · refine .inl ⟨h1, fun x hx => ?_⟩
          rcases List.mem_cons.1 hx with rfl | hx
          · exact h0
          · exact h2 x hx
        · refine .inr ⟨h1, exitStatusOf r :: a, b, by simp [h2], fun x hx => ?_⟩
          rcases List.mem_cons.1 hx with rfl | hx
          · exact h0
          · exact h3 x hx

theorem ended_iff {p : Process} (h : Coherent p) : (∃ r, p.code = some r ∧ Ended r = true) ↔ p.status = .done := by
  rcases h with ⟨h1, h2⟩ | ⟨r, h1, h2⟩
  · rw [h1, h2]; simp
  · rw [h1, h2]
    cases r <;> simp [Ended, stateOf]

theorem stopped_iff {p : Process} (h : Coherent p) : (∃ n, p.code = some (.stopped n)) ↔ p.status = .stopped := by
  rcases h with ⟨h1, h2⟩ | ⟨r, h1, h2⟩
  · rw [h1, h2]; simp
  · rw [h1, h2]
    cases r <;> simp [stateOf]

theorem exitStatus_spec {j : Job} (hs : Sane j) (hj : JobState j.procs j.status) {pf : Bool} {st : Nat} (h : j.exitStatus pf = some st) :
    ExitStatus pf (j.procs.map Process.code) st := by
  have hall : (∀ x ∈ j.procs.map Process.code, ∃ r, x = some r ∧ Ended r = true) ↔ ∀ p ∈ j.procs, p.status = .done := by
    simp only [List.mem_map, forall_exists_index, and_imp, forall_apply_eq_imp_iff₂]
    refine forall_congr' fun p => forall_congr' fun hp => ?_
    exact ended_iff (hs.procs p hp)
  unfold ExitStatus
  rw [hall]
  unfold Job.exitStatus at h
  cases hst : j.status with
  | running => rw [hst] at h; cases h
  | done =>
    rw [hst] at h
    obtain ⟨hne, hd⟩ := hs.done hst
    refine ⟨fun _ hpf => ?_, fun _ hpf => ?_, fun hn => absurd hd hn⟩
    · subst hpf
      simp only [Bool.not_false, if_true] at h
      obtain ⟨p, hp, hl⟩ := getLast_mem hne
      obtain ⟨r, hr, _⟩ := (hs.procs p hp).code (by rw [hd p hp]; simp)
      rw [hl, Option.bind_some, Process.exitStatus, hr, Option.map_some, Option.some.injEq] at h
      exact ⟨r, by rw [List.getLast?_map, hl, Option.map_some, hr], by rw [← h, calcStatus_eq]⟩
    · subst hpf
      simp only [Bool.not_true, Bool.false_eq_true, if_false] at h
      have : ∀ ps : List Process, (∀ p ∈ ps, Coherent p ∧ p.status = .done) → ∃ l : List WaitStatus, ps.map Process.code = l.map some := by
        intro ps
        induction ps with
        | nil => exact fun _ => ⟨[], rfl⟩
        | cons p ps ih =>
          intro hp
          obtain ⟨l, hl⟩ := ih fun q hq => hp q (List.mem_cons_of_mem _ hq)
          obtain ⟨r, hr, _⟩ := (hp p (List.mem_cons_self ..)).1.code (by rw [(hp p (List.mem_cons_self ..)).2]; simp)
          exact ⟨r :: l, by simp [hr, hl]⟩
      obtain ⟨l, hl⟩ := this j.procs fun p hp => ⟨hs.procs p hp, hd p hp⟩
      refine ⟨l, hl, ?_⟩
      have hrev : j.procs.reverse.map Process.code = l.reverse.map some := by rw [List.map_reverse, hl, List.map_reverse]
      rcases pipefailLoop_spec _ _ _ hrev h with ⟨h1, h2⟩ | ⟨h1, a, b, h2, h3⟩
      · exact .inl ⟨h1, fun x hx => h2 x (by simpa using hx)⟩
      · refine .inr ⟨h1, b.reverse, a.reverse, ?_, fun x hx => h3 x (by simpa using hx)⟩
        have := congrArg List.reverse h2
        rw [List.map_reverse, List.reverse_reverse] at this
        rw [this]
        simp
  | stopped =>
    rw [hst] at h hj
    have hno : ¬∀ p ∈ j.procs, p.status = .done := by
      intro hd
      obtain ⟨p, hp, h1⟩ := hs.stopped hst
      rw [hd p hp] at h1
      cases h1
    refine ⟨fun h => absurd h hno, fun h => absurd h hno, fun _ => ?_⟩
    cases hf : j.procs.reverse.find? (·.status == .stopped) with
    | none => rw [hf] at h; cases h
    | some p =>
      rw [hf, Option.bind_some] at h
      obtain ⟨h1, as, bs, h2, h3⟩ := List.find?_eq_some_iff_append.1 hf
      have h4 : j.procs = bs.reverse ++ p :: as.reverse := by
        have := congrArg List.reverse h2
        rw [List.reverse_reverse] at this
        rw [this]; simp
      have hp : p ∈ j.procs := by rw [h4]; simp
      obtain ⟨n, hn⟩ := (stopped_iff (hs.procs p hp)).2 (by simpa using h1)
      rw [Process.exitStatus, hn, Option.map_some, Option.some.injEq] at h
      refine ⟨bs.reverse.map Process.code, n, as.reverse.map Process.code, by rw [h4]; simp [hn], by rw [← h, calcStatus_eq]; rfl, fun m hm => ?_⟩
      rw [List.mem_map] at hm
      obtain ⟨q, hq, hqm⟩ := hm
      have hq' : q ∈ as := by simpa using hq
      have := (stopped_iff (hs.procs q (by rw [h4]; simp [hq']))).1 ⟨m, hqm⟩
      have h5 := h3 q hq'
      simp [this] at h5

/-! ## Pipelines in the foreground -/

/-- A process of a pipeline after some reports. -/
def procOf (es : List Event) (c : Option Nat × List Char) : Process := es.foldl Process.on (startProcess c)

theorem procOf_code (es : List Event) (c : Option Nat × List Char) : (procOf es c).code = lastReport es c ∧
    (procOf es c).status = match lastReport es c with
      | none => .running
      | some r => stateOf r := by
  obtain ⟨pid, name⟩ := c
  cases pid with
  | none =>
    rw [procOf, foldl_on_done _ _ rfl]
    exact ⟨rfl, rfl⟩
  | some pid =>
    rw [procOf, foldl_on_live _ _ (by simp [startProcess])]
    simp only [startProcess, Process.after, lastReport]
    cases (reports pid es).getLast? with
    | none => exact ⟨rfl, rfl⟩
    | some r => exact ⟨rfl, rfl⟩

theorem procOf_done (es : List Event) (c : Option Nat × List Char) : (procOf es c).status = .done ↔ HasEnded es c := by
  rw [(procOf_code es c).2]
  unfold HasEnded
  cases lastReport es c with
  | none => simp
  | some r => cases r <;> simp [stateOf, Ended]

theorem procOf_stopped (es : List Event) (c : Option Nat × List Char) : (procOf es c).status = .stopped ↔ HasStopped es c := by
  rw [(procOf_code es c).2]
  unfold HasStopped
  cases lastReport es c with
  | none => simp
  | some r => cases r <;> simp [stateOf]

theorem livePids_new (key : Nat) (o : Opts) (cs : List (Option Nat × List Char)) : livePids (newJob key o cs).procs = cs.filterMap Prod.fst := by
  simp only [newJob]
  induction cs with
  | nil => rfl
  | cons c cs ih =>
    obtain ⟨pid, name⟩ := c
    rw [List.map_cons, livePids_cons, ih]
    cases pid with
    | none => simp [startProcess]
    | some pid => simp [startProcess]

theorem new_distinct {s u : State} {key : Nat} {o : Opts} {cs : List (Option Nat × List Char)} (hd : DistinctPids s) (hf : FreshPids s cs)
    (h : setActive s (newJob key o cs) = some u) : DistinctPids u := by
  obtain ⟨_, js, hjs, rfl⟩ := setActive_some h
  rw [distinct_iff] at hd ⊢
  rw [hjs] at hd
  have hd' : (liveAll js).Nodup := by simpa [liveAll] using hd
  have : liveAll (some (newJob key o cs) :: js) = livePids (newJob key o cs).procs ++ liveAll js := by simp [liveAll]
  simp only
  rw [this, livePids_new, List.nodup_append]
  refine ⟨hf.1, hd', fun a ha b hb hab => ?_⟩
  subst hab
  rw [liveAll, List.mem_flatMap] at hb
  obtain ⟨x, hx, hxa⟩ := hb
  cases x with
  | none => simp at hxa
  | some j =>
    simp only [livePids, List.mem_map, List.mem_filter, decide_eq_true_eq] at hxa
    obtain ⟨p, ⟨hp, hst⟩, rfl⟩ := hxa
    obtain ⟨n, hn⟩ := mem_iff_jobAt.1 (show some j ∈ s.jobs by rw [hjs]; exact List.mem_cons_of_mem _ hx)
    exact hf.2 _ ha n j hn p hp hst rfl

/-- The job of the pipeline after some reports. -/
theorem newJob_after {key : Nat} {o : Opts} {cs : List (Option Nat × List Char)} (hf : (cs.filterMap Prod.fst).Nodup) (es : List Event) :
    (es.foldl Job.on (newJob key o cs)).procs = cs.map (procOf es) ∧
    ((∃ c ∈ cs, c.1.isSome = true ∧ lastReport es c ≠ none) → JobState (cs.map (procOf es)) (es.foldl Job.on (newJob key o cs)).status) ∧
    ((∀ c ∈ cs, c.1.isSome = true → lastReport es c = none) → (es.foldl Job.on (newJob key o cs)).status = .running) := by
  have hn : (livePids (newJob key o cs).procs).Nodup := by rw [livePids_new]; exact hf
  have hp : (es.foldl Job.on (newJob key o cs)).procs = cs.map (procOf es) := by
    rw [foldl_jobOn_procs es _ hn]
    simp only [newJob, List.map_map]
    rfl
  obtain ⟨h1, h2, _⟩ := foldl_status es _ hn
  refine ⟨hp, fun h => ?_, fun h => ?_⟩
  · rw [← hp, h2]
    · exact summary_spec _
    · obtain ⟨c, hc, hs, hl⟩ := h
      obtain ⟨pid, name⟩ := c
      cases pid with
      | none => cases hs
      | some pid =>
        refine ⟨startProcess (some pid, name), List.mem_map.2 ⟨_, hc, rfl⟩, by simp [startProcess], ?_⟩
        intro hr
        exact hl (by simp only [startProcess] at hr; simp [lastReport, hr])
  · rw [h1]
    · rfl
    · intro p hp hs
      obtain ⟨c, hc, rfl⟩ := List.mem_map.1 hp
      obtain ⟨pid, name⟩ := c
      cases pid with
      | none => exact absurd rfl hs
      | some pid =>
        have := h _ hc rfl
        simpa [lastReport, startProcess] using this

theorem over_iff {key : Nat} {o : Opts} {cs : List (Option Nat × List Char)} (hf : (cs.filterMap Prod.fst).Nodup) (hst : ∃ c ∈ cs, c.1.isSome = true) (jc : Bool) (es : List Event) :
    fin jc (es.foldl Job.on (newJob key o cs)).status = true ↔ Over jc es cs := by
  obtain ⟨hp, h1, h2⟩ := newJob_after (key := key) (o := o) hf es
  by_cases hr : ∃ c ∈ cs, c.1.isSome = true ∧ lastReport es c ≠ none
  · have hjs := h1 hr
    generalize (es.foldl Job.on (newJob key o cs)).status = st at hjs
    unfold Over
    constructor
    · intro hfin
      simp only [fin, Bool.or_eq_true, beq_iff_eq, Bool.and_eq_true] at hfin
      rcases hfin with rfl | ⟨rfl, rfl⟩
      · rcases hjs with ⟨h, _⟩ | ⟨h, _⟩ | ⟨_, h⟩
        · cases h
        · cases h
        · exact .inl fun c hc => (procOf_done es c).1 (h _ (List.mem_map_of_mem hc))
      · rcases hjs with ⟨h, _⟩ | ⟨_, h, _⟩ | ⟨h, _⟩
        · cases h
        · refine .inr ⟨rfl, fun c hc => ?_⟩
          have := h _ (List.mem_map_of_mem (f := procOf es) hc)
          rw [← procOf_done, ← procOf_stopped]
          cases hs : (procOf es c).status <;> simp_all
        · cases h
    · intro ho
      have hnr : ∀ c ∈ cs, (procOf es c).status ≠ .running := by
        intro c hc hrun
        have hx : HasEnded es c ∨ HasStopped es c := by
          rcases ho with h | ⟨_, h⟩
          · exact .inl (h c hc)
          · exact h c hc
        rw [← procOf_done, ← procOf_stopped, hrun] at hx
        rcases hx with h | h <;> cases h
      rcases hjs with ⟨_, p, hp', h⟩ | ⟨rfl, _, p, hp', h⟩ | ⟨rfl, _⟩
      · obtain ⟨c, hc, rfl⟩ := List.mem_map.1 hp'
        exact absurd h (hnr c hc)
      · obtain ⟨c, hc, rfl⟩ := List.mem_map.1 hp'
        rcases ho with ho | ⟨rfl, _⟩
        · have := (procOf_done es c).2 (ho c hc)
          rw [h] at this
          cases this
        · rfl
      · rfl
  · have hn : ∀ c ∈ cs, c.1.isSome = true → lastReport es c = none := by
      intro c hc hs
      cases hl : lastReport es c with
      | none => rfl
      | some r => exact absurd ⟨c, hc, hs, by rw [hl]; simp⟩ hr
    rw [h2 hn]
    simp only [fin]
    constructor
    · intro h
      simp at h
    · intro ho
      obtain ⟨c, hc, hs⟩ := hst
      have hl := hn c hc hs
      have hx : HasEnded es c ∨ HasStopped es c := by
        rcases ho with h | ⟨_, h⟩
        · exact .inl (h c hc)
        · exact h c hc
      rcases hx with ⟨r, h, _⟩ | ⟨n, h⟩
      · rw [hl] at h; cases h
      · rw [hl] at h; cases h

end Yash.Job
