import Verif.Job.Lemmas
/-!
# Operations on the list of jobs keep the other jobs and restore the choice of the current job
-/
set_option autoImplicit false

namespace Yash.Job

open Spec

/-! ## Elements of the list -/

theorem jobAt_set {s : State} {n : Nat} (h : n < s.jobs.length) (x : Option Job) (m : Nat) :
    jobAt { s with jobs := s.jobs.set n x } m = if m = n then x else jobAt s m := by
  unfold jobAt
  simp only [List.getElem?_set]
  by_cases hm : n = m
  · subst hm
    simp only [if_true, h]
    cases x <;> rfl
  · rw [if_neg hm, if_neg (fun h => hm h.symm)]

theorem jobAt_mk (s : State) (l : List (Option Job)) (cap c p : Nat) (m : Nat) (h : s.jobs = l) : jobAt ⟨l, cap, c, p⟩ m = jobAt s m :=
  jobAt_congr h.symm m

/-- The element of a list of jobs. -/
def elem (l : List (Option Job)) (n : Nat) : Option Job := (l[n]?).join

theorem jobAt_elem (s : State) (n : Nat) : jobAt s n = elem s.jobs n := by
  unfold jobAt elem
  cases s.jobs[n]? with
  | none => rfl
  | some x => cases x <;> rfl

theorem elem_append (l : List (Option Job)) (k n : Nat) : elem (l ++ List.replicate k none) n = elem l n := by
  unfold elem
  rw [List.getElem?_append]
  split
  · rfl
  · rename_i h
    rw [List.getElem?_eq_none (l := l) (by omega), List.getElem?_replicate]
    split <;> rfl

theorem takeWhile_none (l : List (Option Job)) : l.takeWhile Option.isNone = List.replicate (l.takeWhile Option.isNone).length none := by
  refine List.eq_replicate_iff.2 ⟨rfl, fun b hb => ?_⟩
  have := List.all_takeWhile (p := Option.isNone) (l := l)
  rw [List.all_eq_true] at this
  simpa using this b hb

theorem elem_dropNulls (l : List (Option Job)) (n : Nat) : elem (dropNulls l) n = elem l n := by
  cases l with
  | nil => rfl
  | cons j js =>
    have h : j :: js = dropNulls (j :: js) ++ List.replicate (js.reverse.takeWhile Option.isNone).length none := by
      have h1 := List.takeWhile_append_dropWhile (p := Option.isNone) (l := js.reverse)
      have h2 := congrArg List.reverse h1
      rw [List.reverse_reverse, List.reverse_append, takeWhile_none, List.reverse_replicate] at h2
      simp only [dropNulls, List.cons_append]
      rw [h2]
    rw [h, elem_append]
    rw [← h]

theorem dropNulls_head (l : List (Option Job)) : (dropNulls l)[0]? = l[0]? := by cases l <;> rfl

theorem jobAt_trim (s : State) (n : Nat) : jobAt (trim s) n = jobAt s n := by
  unfold trim
  split
  · rfl
  · rw [jobAt_elem, jobAt_elem]
    exact elem_dropNulls _ _

theorem trim_current (s : State) : (trim s).current = s.current := by unfold trim; split <;> rfl
theorem trim_previous (s : State) : (trim s).previous = s.previous := by unfold trim; split <;> rfl

theorem trim_head (s : State) : (trim s).jobs[0]? = s.jobs[0]? := by
  unfold trim
  split
  · rfl
  · exact dropNulls_head _

theorem idle_iff {s : State} : Idle s ↔ s.jobs[0]? = some none := by
  unfold Idle
  cases h : s.jobs with
  | nil => simp
  | cons a l => simp

/-! ## Removal -/

theorem removeJob_some {s s' : State} {n : Nat} (h : removeJob s n = some s') :
    n < s.jobs.length ∧ s' = setCurrent (trim { s with jobs := s.jobs.set n none }) s.current := by
  unfold removeJob at h
  split at h
  · rename_i hn
    simp only [Option.some.injEq] at h
    rw [trim_current] at h
    exact ⟨hn, h.symm⟩
  · cases h

theorem jobAt_removeJob {s s' : State} {n : Nat} (h : removeJob s n = some s') (m : Nat) : jobAt s' m = if m = n then none else jobAt s m := by
  obtain ⟨hn, rfl⟩ := removeJob_some h
  rw [jobAt_congr (setCurrent_jobs _ _), jobAt_trim, jobAt_set hn]

theorem removeJob_discipline {s s' : State} {n : Nat} (h : removeJob s n = some s') (hz : n = 0 ∨ jobAt s 0 = none) : Discipline s' := by
  obtain ⟨hn, rfl⟩ := removeJob_some h
  refine setCurrent_discipline ?_ _
  rw [jobAt_trim, jobAt_set hn]
  rcases hz with rfl | hz
  · simp
  · split
    · rfl
    · exact hz

theorem removeJob_idle {s s' : State} {n : Nat} (h : removeJob s n = some s') (hz : n = 0 ∨ Idle s) : Idle s' := by
  obtain ⟨hn, rfl⟩ := removeJob_some h
  rw [idle_iff, setCurrent_jobs, trim_head]
  rcases hz with rfl | hz
  · simp [hn]
  · simp only [List.getElem?_set]
    rw [idle_iff] at hz
    split
    · rename_i h0
      subst h0
      simp [hn]
    · exact hz

/-! ## Replacement -/

theorem jobAt_setJob {s : State} {n : Nat} (h : n < s.jobs.length) (j : Job) (m : Nat) : jobAt (setJob s n j) m = if m = n then some j else jobAt s m :=
  jobAt_set h _ _

/-- Two lists of jobs with the same numbers and the same statuses. -/
def Same (s t : State) : Prop := ∀ n, (jobAt s n).map Job.status = (jobAt t n).map Job.status

theorem Same.refl (s : State) : Same s s := fun _ => rfl

theorem Same.symm {s t : State} (h : Same s t) : Same t s := fun n => (h n).symm

theorem Same.trans {s t u : State} (h : Same s t) (h' : Same t u) : Same s u := fun n => (h n).trans (h' n)

theorem Same.present {s t : State} (h : Same s t) (n : Nat) : Present s n ↔ Present t n := by
  have := h n
  unfold Present
  revert this
  cases jobAt s n <;> cases jobAt t n <;> simp

theorem Same.stopped {s t : State} (h : Same s t) (n : Nat) : Stopped s n ↔ Stopped t n := by
  have := h n
  unfold Stopped
  revert this
  cases jobAt s n <;> cases jobAt t n <;> simp
  intro h; rw [h]

theorem Same.discipline {s t : State} (h : Same s t) (hc : s.current = t.current) (hp : s.previous = t.previous) (hd : Discipline s) : Discipline t := by
  obtain ⟨h1, h2, h3, h4, h5, h6⟩ := hd
  simp only [h.present, h.stopped, hc, hp] at h1 h2 h3 h4 h5 h6
  exact ⟨h1, h2, h3, h4, h5, h6⟩

theorem same_setJob {s : State} {n : Nat} {j j' : Job} (h : jobAt s n = some j) (hs : j'.status = j.status) : Same (setJob s n j') s := by
  intro m
  rw [jobAt_setJob (jobAt_lt h)]
  by_cases hm : m = n
  · subst hm
    simp [h, hs]
  · rw [if_neg hm]

theorem idle_setJob {s : State} {n : Nat} {j : Job} (h : Idle s) (hn : n ≠ 0) : Idle (setJob s n j) := by
  rw [idle_iff] at h ⊢
  simp only [setJob, List.getElem?_set]
  rw [if_neg hn]
  exact h

theorem Idle.ne_zero {s : State} {n : Nat} {j : Job} (h : Idle s) (hj : jobAt s n = some j) : n ≠ 0 := by
  rintro rfl
  rw [Idle.zero h] at hj
  cases hj

/-! ## Printing -/

/-- A step that keeps the jobs from being disturbed. -/
def Keeps (s t : State) : Prop := Idle s → Discipline s → Idle t ∧ Discipline t

theorem printJob_keeps {s t : State} {n : Nat} {c r : Bool} {rs : List Report} (h : printJob s n c r = some (rs, t)) : Keeps s t := by
  intro hi hd
  unfold printJob at h
  split at h
  · cases h; exact ⟨hi, hd⟩
  · rename_i j hj
    rw [getJob_eq] at hj
    have hn := Idle.ne_zero hi hj
    split at h
    · cases h; exact ⟨hi, hd⟩
    · cases hdesc : j.desc with
      | none => rw [hdesc] at h; cases h
      | some d =>
        rw [hdesc] at h
        have hi1 := idle_setJob (j := { j with changed := false }) hi hn
        have hd1 := (same_setJob (j' := { j with changed := false }) hj rfl).symm.discipline rfl rfl hd
        simp only [Option.bind_eq_bind, Option.bind_some] at h
        split at h
        · rename_i hcond
          cases hr : removeJob (setJob s n { j with changed := false }) n with
          | none => rw [hr] at h; cases h
          | some u =>
            rw [hr] at h
            cases h
            exact ⟨removeJob_idle hr (.inr hi1), removeJob_discipline hr (.inr (Idle.zero hi1))⟩
        · cases h
          exact ⟨hi1, hd1⟩

theorem jobsPrint_keeps {jo : JobsOpts} {s t : State} {n : Nat} {rs : List Report} (h : jobsPrint jo s n = some (rs, t)) : Keeps s t := by
  unfold jobsPrint at h
  split at h
  · cases h; exact fun a b => ⟨a, b⟩
  · split at h
    · cases h; exact fun a b => ⟨a, b⟩
    · exact printJob_keeps h

theorem printLoop_keeps {pr : State → Nat → Option (List Report × State)} (hpr : ∀ s n rs t, pr s n = some (rs, t) → Keeps s t) :
    ∀ (k i : Nat) (s t : State) (rs : List Report), printLoop pr k i s = some (rs, t) → Keeps s t
  | 0, i, s, t, rs, h => by
    simp only [printLoop] at h
    cases h
    exact fun a b => ⟨a, b⟩
  | k + 1, i, s, t, rs, h => by
    simp only [printLoop] at h
    split at h
    · cases h1 : pr s i with
      | none => rw [h1] at h; cases h
      | some p =>
        rw [h1] at h
        simp only [Option.bind_eq_bind, Option.bind_some] at h
        cases h2 : printLoop pr k (i + 1) p.2 with
        | none => rw [h2] at h; cases h
        | some q =>
          rw [h2] at h
          cases h
          intro a b
          obtain ⟨a', b'⟩ := hpr s i p.1 p.2 h1 a b
          exact printLoop_keeps hpr k (i + 1) p.2 q.2 q.1 h2 a' b'
    · cases h
      exact fun a b => ⟨a, b⟩

theorem curstopLoop_jobs : ∀ (l : List Nat) (s : State), (curstopLoop l s).jobs = s.jobs
  | [], s => rfl
  | n :: ns, s => by
    simp only [curstopLoop]
    split
    · split
      · rw [curstopLoop_jobs ns]; rfl
      · exact curstopLoop_jobs ns s
    · exact curstopLoop_jobs ns s

theorem applyCurstop_jobs (o : Opts) (s : State) : (applyCurstop o s).jobs = s.jobs := by
  unfold applyCurstop
  simp only [setCurrent_jobs]
  split
  · exact curstopLoop_jobs _ _
  · rfl

theorem idle_congr {s t : State} (h : s.jobs = t.jobs) : Idle s ↔ Idle t := by rw [idle_iff, idle_iff, h]

theorem applyCurstop_discipline (o : Opts) {s : State} (h : Idle s) : Idle (applyCurstop o s) ∧ Discipline (applyCurstop o s) := by
  refine ⟨(idle_congr (applyCurstop_jobs o s)).2 h, ?_⟩
  unfold applyCurstop
  refine setCurrent_discipline ?_ _
  have : (if o.curstop then curstopLoop (List.range s.jobs.length) s else s).jobs = s.jobs := by
    split
    · exact curstopLoop_jobs _ _
    · rfl
  rw [jobAt_congr this]
  exact Idle.zero h

theorem printAll_discipline {o : Opts} {s t : State} {rs : List Report} (h : printAll o s = some (rs, t)) (hi : Idle s) : Idle t ∧ Discipline t := by
  have h1 := applyCurstop_discipline o hi
  exact printLoop_keeps (fun _ _ _ _ h => printJob_keeps h) _ _ _ _ _ h h1.1 h1.2

theorem jobsOperands_keeps {o : Opts} {jo : JobsOpts} : ∀ (as : List (List Char)) (s t : State) (rs : List Report) (es : List Error),
    jobsOperands o jo as s = some (rs, es, t) → Keeps s t
  | [], s, t, rs, es, h => by
    simp only [jobsOperands] at h
    cases h
    exact fun a b => ⟨a, b⟩
  | a :: as, s, t, rs, es, h => by
    simp only [jobsOperands] at h
    split at h
    · cases h1 : jobsOperands o jo as s with
      | none => rw [h1] at h; cases h
      | some p =>
        rw [h1] at h
        cases h
        exact jobsOperands_keeps as s _ _ _ h1
    · split at h
      · cases h1 : jobsOperands o jo as s with
        | none => rw [h1] at h; cases h
        | some p =>
          rw [h1] at h
          cases h
          exact jobsOperands_keeps as s _ _ _ h1
      · rename_i n _ _
        cases h1 : jobsPrint jo s n with
        | none => rw [h1] at h; cases h
        | some p =>
          rw [h1] at h
          simp only [Option.bind_eq_bind, Option.bind_some] at h
          cases h2 : jobsOperands o jo as p.2 with
          | none => rw [h2] at h; cases h
          | some q =>
            rw [h2] at h
            cases h
            intro a b
            obtain ⟨a', b'⟩ := jobsPrint_keeps h1 a b
            exact jobsOperands_keeps as p.2 _ _ _ h2 a' b'

theorem jobsBuiltin_discipline {o : Opts} {jo : JobsOpts} {args : List (List Char)} {s t : State} {rs : List Report} {es : List Error}
    (h : jobsBuiltin o jo args s = some (rs, es, t)) (hi : Idle s) : Idle t ∧ Discipline t := by
  have h1 := applyCurstop_discipline o hi
  simp only [jobsBuiltin] at h
  split at h
  · cases h2 : printLoop (jobsPrint jo) (applyCurstop o s).jobs.length 1 (applyCurstop o s) with
    | none => rw [h2] at h; cases h
    | some p =>
      rw [h2] at h
      cases h
      exact printLoop_keeps (fun _ _ _ _ h => jobsPrint_keeps h) _ _ _ _ _ h2 h1.1 h1.2
  · exact jobsOperands_keeps _ _ _ _ _ h h1.1 h1.2

/-! ## New jobs -/

theorem findIdx_lt_or {l : List (Option Job)} : (l.findIdx Option.isNone < l.length ∧ l[l.findIdx Option.isNone]? = some none ∨
    l.findIdx Option.isNone = l.length) ∧ ∀ i, i < l.findIdx Option.isNone → ∃ j, l[i]? = some (some j) := by
  constructor
  · by_cases h : l.findIdx Option.isNone < l.length
    · refine .inl ⟨h, ?_⟩
      have := List.findIdx_getElem (w := h)
      rw [List.getElem?_eq_getElem h]
      simpa using this
    · exact .inr (by have := List.findIdx_le_length (p := Option.isNone) (xs := l); omega)
  · intro i hi
    have := List.not_of_lt_findIdx hi
    have hl : i < l.length := Nat.lt_of_lt_of_le hi List.findIdx_le_length
    rw [List.getElem?_eq_getElem hl]
    cases h : l[i] with
    | none => rw [h] at this; cases this
    | some j => exact ⟨j, rfl⟩

/-- The number that the active job gets. -/
theorem addJob_spec {s s' : State} {b : Bool} (h : addJob s b = some s') : ∃ (j : Job) (js : List (Option Job)) (n : Nat), s.jobs = some j :: js ∧ n = firstEmpty s.jobs ∧
    (∀ m, jobAt s' m = if m = n then some j else if m = 0 then none else jobAt s m) ∧ 0 < n ∧ jobAt s n = none ∧ (∀ m, 0 < m → m < n → Present s m) ∧
    Idle s' ∧ ∃ t, t.current = s.current ∧ t.previous = s.previous ∧ t.jobs = s'.jobs ∧ s' = setCurrent t (if j.status == .stopped || b then n else s.current) := by
  unfold addJob at h
  split at h
  · rename_i j js hjs
    simp only [Option.some.injEq] at h
    obtain ⟨h1, h2⟩ := findIdx_lt_or (l := js)
    have hn : firstEmpty s.jobs = 1 + js.findIdx Option.isNone := by simp [firstEmpty, hjs]
    have key : ∀ t : State, t.current = s.current → t.previous = s.previous →
        (∀ m, jobAt t m = if m = firstEmpty s.jobs then some j else if m = 0 then none else jobAt s m) → Idle t →
        (if (j.status == .stopped || b) = true then setCurrent t (firstEmpty s.jobs) else setCurrent t t.current) = s' →
        ∃ (j : Job) (js : List (Option Job)) (n : Nat), s.jobs = some j :: js ∧ n = firstEmpty s.jobs ∧
        (∀ m, jobAt s' m = if m = n then some j else if m = 0 then none else jobAt s m) ∧ 0 < n ∧ jobAt s n = none ∧ (∀ m, 0 < m → m < n → Present s m) ∧
        Idle s' ∧ ∃ t, t.current = s.current ∧ t.previous = s.previous ∧ t.jobs = s'.jobs ∧ s' = setCurrent t (if j.status == .stopped || b then n else s.current) := by
      intro t hc hp ht hi he
      have he' : s' = setCurrent t (if j.status == .stopped || b then firstEmpty s.jobs else s.current) := by
        rw [← he, hc]; split <;> rfl
      have hj : t.jobs = s'.jobs := by rw [he']; rfl
      refine ⟨j, js, _, hjs, rfl, fun m => ?_, by omega, ?_, fun m hm hmn => ?_, (idle_congr hj).1 hi, t, hc, hp, hj, he'⟩
      · rw [← jobAt_congr hj]; exact ht m
      · rw [jobAt_elem, hn, hjs, elem, Nat.add_comm, List.getElem?_cons_succ]
        rcases h1 with ⟨_, h1⟩ | h1
        · rw [h1]; rfl
        · rw [List.getElem?_eq_none (by omega)]; rfl
      · obtain ⟨m, rfl⟩ : ∃ k, m = k + 1 := ⟨m - 1, by omega⟩
        obtain ⟨j', hj'⟩ := h2 m (by omega)
        refine ⟨j', ?_⟩
        rw [jobAt_elem, hjs, elem, List.getElem?_cons_succ, hj']; rfl
    have hz : ∀ (cap c p : Nat) (m : Nat), jobAt ⟨none :: js, cap, c, p⟩ m = if m = 0 then none else jobAt s m := by
      intro cap c p m
      rw [jobAt_elem, jobAt_elem, hjs]
      cases m with
      | zero => rfl
      | succ m => rw [if_neg (by omega)]; rfl
    by_cases hlt : firstEmpty s.jobs < s.jobs.length
    · rw [if_pos hlt] at h
      refine key _ ?_ ?_ ?_ ?_ h
      · rfl
      · rfl
      · intro m
        have := jobAt_set (s := { s with jobs := none :: js }) (n := firstEmpty s.jobs) (by simpa [hjs] using hlt) (some j) m
        simp only at this
        rw [this]
        split
        · rfl
        · exact hz _ _ _ m
      · rw [idle_iff]
        simp only [List.getElem?_set]
        rw [if_neg (by omega)]
        rfl
    · rw [if_neg hlt] at h
      refine key _ ?_ ?_ ?_ ?_ h
      · rfl
      · rfl
      · intro m
        have hlen : firstEmpty s.jobs = js.length + 1 := by
          rw [hjs] at hlt
          simp only [List.length_cons] at hlt
          rw [← hjs] at hlt
          have := List.findIdx_le_length (p := Option.isNone) (xs := js)
          omega
        rw [hlen]
        rw [← hz s.cap s.current s.previous m, jobAt_elem, jobAt_elem]
        simp only [elem]
        rw [List.getElem?_append]
        split
        · rename_i hm
          simp only [List.length_cons] at hm
          rw [if_neg (by omega)]
        · rename_i hm
          simp only [List.length_cons] at hm
          split
          · rename_i he
            subst he
            simp
          · rw [List.getElem?_eq_none (by simp; omega), List.getElem?_eq_none (by simp; omega)]
      · exact ⟨js ++ [some j], rfl⟩
  · cases h

theorem addJob_discipline {s s' : State} {b : Bool} (h : addJob s b = some s') : Idle s' ∧ Discipline s' := by
  obtain ⟨j, js, n, _, _, _, _, _, _, hi, t, _, _, hj, he⟩ := addJob_spec h
  refine ⟨hi, ?_⟩
  rw [he]
  refine setCurrent_discipline ?_ _
  rw [jobAt_congr hj]
  exact Idle.zero hi

end Yash.Job
