import Verif.Job.Spec
/-!
# The current and the previous job
-/
set_option autoImplicit false

namespace Yash.Job

open Spec

theorem getJob_eq (s : State) (n : Nat) : getJob s n = jobAt s n := by
  unfold getJob jobAt
  by_cases h : n < s.jobs.length
  · rw [if_pos h, List.getElem?_eq_getElem h]
    simp [List.getD, List.getElem?_eq_getElem h]
    cases s.jobs[n] <;> rfl
  · rw [if_neg h, List.getElem?_eq_none (by omega)]

theorem Idle.zero {s : State} (h : Idle s) : jobAt s 0 = none := by
  obtain ⟨js, h⟩ := h
  simp [jobAt, h]

theorem jobAt_lt {s : State} {n : Nat} {j : Job} (h : jobAt s n = some j) : n < s.jobs.length := by
  unfold jobAt at h
  by_cases hn : n < s.jobs.length
  · exact hn
  · rw [List.getElem?_eq_none (by omega)] at h
    cases h

theorem Present.lt {s : State} {n : Nat} (h : Present s n) : n < s.jobs.length := by
  obtain ⟨j, h⟩ := h
  exact jobAt_lt h

theorem isStopped_iff {s : State} {n : Nat} : isStopped (getJob s n) = true ↔ Stopped s n := by
  rw [getJob_eq]
  unfold Stopped
  cases jobAt s n with
  | none => simp [isStopped]
  | some j => simp [isStopped]

theorem isSome_iff {s : State} {n : Nat} : (getJob s n).isSome = true ↔ Present s n := by
  rw [getJob_eq, Option.isSome_iff_exists]
  rfl

theorem stopped_present {s : State} {n : Nat} (h : Stopped s n) : Present s n := h.imp fun _ h => h.1

theorem unfit_iff {s : State} {b : Bool} {n : Nat} : unfit s b n = false ↔ Present s n ∧ (b = true → Stopped s n) := by
  unfold unfit
  rw [getJob_eq]
  unfold Present Stopped
  cases jobAt s n with
  | none => simp
  | some j => cases b <;> simp

/-! ## Counting -/

theorem mem_iff_jobAt {s : State} {j : Job} : some j ∈ s.jobs ↔ ∃ n, jobAt s n = some j := by
  rw [List.mem_iff_getElem?]
  refine exists_congr fun n => ?_
  unfold jobAt
  split
  · rename_i j' h
    simp [h]
  · rename_i h
    exact ⟨fun h' => absurd h' (h j), fun h' => by cases h'⟩

theorem count_pos {s : State} : 0 < stoppedCount s ↔ ∃ n, Stopped s n := by
  unfold stoppedCount
  rw [List.countP_pos_iff]
  constructor
  · rintro ⟨x, hx, hs⟩
    cases x with
    | none => cases hs
    | some j =>
      obtain ⟨n, hn⟩ := mem_iff_jobAt.1 hx
      exact ⟨n, j, hn, by simpa [isStopped] using hs⟩
  · rintro ⟨n, j, hn, hs⟩
    exact ⟨some j, mem_iff_jobAt.2 ⟨n, hn⟩, by simp [isStopped, hs]⟩

theorem countP_two {α : Type} (p : α → Bool) : ∀ (l : List α), 1 < l.countP p ↔
    ∃ (i k : Nat) (x y : α), i < k ∧ l[i]? = some x ∧ l[k]? = some y ∧ p x = true ∧ p y = true
  | [] => by simp
  | a :: l => by
    have h1 : 0 < l.countP p ↔ ∃ (k : Nat) (y : α), l[k]? = some y ∧ p y = true := by
      rw [List.countP_pos_iff]
      constructor
      · rintro ⟨y, hy, hp⟩
        obtain ⟨k, hk⟩ := List.mem_iff_getElem?.1 hy
        exact ⟨k, y, hk, hp⟩
      · rintro ⟨k, y, hk, hp⟩
        exact ⟨y, List.mem_iff_getElem?.2 ⟨k, hk⟩, hp⟩
    have ih := countP_two p l
    by_cases ha : p a = true
    · rw [List.countP_cons_of_pos ha]
      constructor
      · intro h
        obtain ⟨k, y, hk, hp⟩ := h1.1 (by omega)
        exact ⟨0, k + 1, a, y, by omega, rfl, by simpa using hk, ha, hp⟩
      · rintro ⟨i, k, x, y, hik, hi, hk, hx, hy⟩
        obtain ⟨k, rfl⟩ : ∃ k', k = k' + 1 := ⟨k - 1, by omega⟩
        have := h1.2 ⟨k, y, by simpa using hk, hy⟩
        omega
    · rw [List.countP_cons_of_neg ha, ih]
      constructor
      · rintro ⟨i, k, x, y, hik, hi, hk, hx, hy⟩
        exact ⟨i + 1, k + 1, x, y, by omega, by simpa using hi, by simpa using hk, hx, hy⟩
      · rintro ⟨i, k, x, y, hik, hi, hk, hx, hy⟩
        cases i with
        | zero =>
          simp at hi
          subst hi
          exact absurd hx ha
        | succ i =>
          obtain ⟨k, rfl⟩ : ∃ k', k = k' + 1 := ⟨k - 1, by omega⟩
          exact ⟨i, k, x, y, by omega, by simpa using hi, by simpa using hk, hx, hy⟩

theorem count_two {s : State} : 1 < stoppedCount s ↔ ∃ n m, n ≠ m ∧ Stopped s n ∧ Stopped s m := by
  unfold stoppedCount
  rw [countP_two]
  have key : ∀ n, Stopped s n ↔ ∃ x, s.jobs[n]? = some x ∧ isStopped x = true := by
    intro n
    unfold Stopped jobAt
    cases h : s.jobs[n]? with
    | none => simp
    | some x =>
      cases x with
      | none => simp [isStopped]
      | some j => simp [isStopped]
  constructor
  · rintro ⟨i, k, x, y, hik, hi, hk, hx, hy⟩
    exact ⟨i, k, by omega, (key i).2 ⟨x, hi, hx⟩, (key k).2 ⟨y, hk, hy⟩⟩
  · rintro ⟨n, m, hnm, hn, hm⟩
    obtain ⟨x, hx1, hx2⟩ := (key n).1 hn
    obtain ⟨y, hy1, hy2⟩ := (key m).1 hm
    rcases Nat.lt_or_gt_of_ne hnm with h | h
    · exact ⟨n, m, x, y, h, hx1, hy1, hx2, hy2⟩
    · exact ⟨m, n, y, x, h, hy1, hx1, hy2, hx2⟩

/-! ## Looking for another job -/

theorem scanDown_spec (p : Nat → Bool) : ∀ n, (scanDown p n = 0 ∧ ∀ i, 0 < i → i < n → p i = false) ∨
    (0 < scanDown p n ∧ scanDown p n < n ∧ p (scanDown p n) = true ∧ ∀ i, scanDown p n < i → i < n → p i = false)
  | 0 => .inl ⟨rfl, fun i _ h => by omega⟩
  | 1 => .inl ⟨rfl, fun i _ h => by omega⟩
  | n + 2 => by
    unfold scanDown
    by_cases h : p (n + 1) = true
    · rw [if_pos h]
      exact .inr ⟨by omega, by omega, h, fun i _ _ => by omega⟩
    · rw [if_neg h]
      simp only [Bool.not_eq_true] at h
      rcases scanDown_spec p (n + 1) with ⟨h1, h2⟩ | ⟨h1, h2, h3, h4⟩
      · refine .inl ⟨h1, fun i hi hi' => ?_⟩
        by_cases he : i = n + 1
        · rw [he]; exact h
        · exact h2 i hi (by omega)
      · refine .inr ⟨h1, by omega, h3, fun i hi hi' => ?_⟩
        by_cases he : i = n + 1
        · rw [he]; exact h
        · exact h4 i hi (by omega)

theorem findNext_spec {s : State} (hz : jobAt s 0 = none) (excl : Nat) :
    (Present s (findNext s excl) ∧ findNext s excl ≠ excl ∧ ((∃ n, n ≠ excl ∧ Stopped s n) → Stopped s (findNext s excl))) ∨
    (findNext s excl = 0 ∧ ∀ n, Present s n → n = excl) := by
  have hpos : ∀ n, Present s n → 0 < n := by
    rintro n ⟨j, hj⟩
    rcases Nat.eq_zero_or_pos n with rfl | h
    · rw [hz] at hj; cases hj
    · exact h
  unfold findNext
  split
  · rename_i h
    simp only [Bool.and_eq_true, bne_iff_ne, isStopped_iff] at h
    exact .inl ⟨(stopped_present h.2), h.1, fun _ => h.2⟩
  · simp only
    rcases scanDown_spec (fun i => i != excl && isStopped (getJob s i)) s.jobs.length with ⟨h1, h2⟩ | ⟨h1, h2, h3, h4⟩
    · rw [h1, if_neg (by simp)]
      have hno : ¬∃ n, n ≠ excl ∧ Stopped s n := by
        rintro ⟨n, hn, hs⟩
        have := h2 n (hpos n (stopped_present hs)) (Present.lt (stopped_present hs))
        simp only [Bool.and_eq_false_iff, bne_eq_false_iff_eq] at this
        rcases this with h | h
        · exact hn h
        · rw [isStopped_iff.2 hs] at h; cases h
      rcases scanDown_spec (fun i => i != excl && (getJob s i).isSome) s.jobs.length with ⟨g1, g2⟩ | ⟨g1, g2, g3, g4⟩
      · refine .inr ⟨g1, fun n hn => ?_⟩
        have := g2 n (hpos n hn) (Present.lt hn)
        simp only [Bool.and_eq_false_iff, bne_eq_false_iff_eq] at this
        rcases this with h | h
        · exact h
        · rw [isSome_iff.2 hn] at h; cases h
      · simp only [Bool.and_eq_true, bne_iff_ne, isSome_iff] at g3
        exact .inl ⟨g3.2, g3.1, fun h => absurd h hno⟩
    · rw [if_pos (by simp; omega)]
      simp only [Bool.and_eq_true, bne_iff_ne, isStopped_iff] at h3
      exact .inl ⟨(stopped_present h3.2), h3.1, fun _ => h3.2⟩

/-! ## Choosing the current job -/

@[simp] theorem setCurrent_jobs (s : State) (n : Nat) : (setCurrent s n).jobs = s.jobs := rfl
@[simp] theorem setCurrent_cap (s : State) (n : Nat) : (setCurrent s n).cap = s.cap := rfl

theorem jobAt_congr {s t : State} (h : s.jobs = t.jobs) (n : Nat) : jobAt s n = jobAt t n := by simp [jobAt, h]

theorem exists_congr' {s t : State} (h : s.jobs = t.jobs) (n : Nat) : Present s n ↔ Present t n := by simp [Present, jobAt_congr h]

theorem stopped_congr {s t : State} (h : s.jobs = t.jobs) (n : Nat) : Stopped s n ↔ Stopped t n := by simp [Stopped, jobAt_congr h]

/-- What `setCurrent` chooses as the current job. -/
def newCurrent (s : State) (n : Nat) : Nat :=
  if !unfit s (stoppedCount s > 0) n then n
  else if !unfit s (stoppedCount s > 0) s.current then s.current
  else if !unfit s (stoppedCount s > 0) s.previous then s.previous
  else findNext s 0

/-- What `setCurrent` chooses as the previous job if the current job is to be `c`. -/
def newPrevious (s : State) (c : Nat) : Nat :=
  let p := if c != s.current then s.current else s.previous
  if !(unfit s (stoppedCount s > 1) p || p == c) then p
  else if !(unfit s (stoppedCount s > 1) s.previous || s.previous == c) then s.previous
  else findNext s c

theorem setCurrent_eq (s : State) (n : Nat) : setCurrent s n = { s with current := newCurrent s n, previous := newPrevious s (newCurrent s n) } := rfl

theorem newCurrent_spec {s : State} (hz : jobAt s 0 = none) (n : Nat) :
    (Present s (newCurrent s n) ∧ ((∃ m, Stopped s m) → Stopped s (newCurrent s n))) ∨ (newCurrent s n = 0 ∧ ∀ m, ¬Present s m) := by
  have hfit : ∀ m, (!unfit s (decide (stoppedCount s > 0)) m) = true → Present s m ∧ ((∃ m, Stopped s m) → Stopped s m) := by
    intro m hm
    have := unfit_iff.1 (by simpa using hm)
    refine ⟨this.1, fun h => this.2 ?_⟩
    simpa using count_pos.2 h
  unfold newCurrent
  split
  · exact .inl (hfit _ ‹_›)
  · split
    · exact .inl (hfit _ ‹_›)
    · split
      · exact .inl (hfit _ ‹_›)
      · rcases findNext_spec hz 0 with ⟨h1, h2, h3⟩ | ⟨h1, h2⟩
        · refine .inl ⟨h1, fun ⟨m, hm⟩ => h3 ⟨m, ?_, hm⟩⟩
          rintro rfl
          obtain ⟨j, hj, _⟩ := hm
          rw [hz] at hj; cases hj
        · refine .inr ⟨h1, fun m hm => ?_⟩
          have := h2 m hm
          subst this
          obtain ⟨j, hj⟩ := hm
          rw [hz] at hj; cases hj

theorem newPrevious_spec {s : State} (hz : jobAt s 0 = none) (c : Nat) (hc : (∃ m, Stopped s m) → Stopped s c) :
    (Present s (newPrevious s c) ∧ newPrevious s c ≠ c ∧ ((∃ m, m ≠ c ∧ Stopped s m) → Stopped s (newPrevious s c))) ∨
    (newPrevious s c = 0 ∧ ∀ m, Present s m → m = c) := by
  have hfit : ∀ m, (!(unfit s (decide (stoppedCount s > 1)) m || m == c)) = true →
      Present s m ∧ m ≠ c ∧ ((∃ m, m ≠ c ∧ Stopped s m) → Stopped s m) := by
    intro m hm
    simp only [Bool.not_or, Bool.and_eq_true, Bool.not_eq_true', beq_eq_false_iff_ne, ne_eq] at hm
    have := unfit_iff.1 hm.1
    refine ⟨this.1, hm.2, fun ⟨k, hk, hs⟩ => this.2 ?_⟩
    simpa using count_two.2 ⟨k, c, hk, hs, hc ⟨k, hs⟩⟩
  unfold newPrevious
  generalize (if c != s.current then s.current else s.previous) = p
  simp only
  split
  · exact .inl (hfit _ ‹_›)
  · split
    · exact .inl (hfit _ ‹_›)
    · exact findNext_spec hz c

theorem setCurrent_discipline {s : State} (hz : jobAt s 0 = none) (n : Nat) : Discipline (setCurrent s n) := by
  have he : ∀ m, Present (setCurrent s n) m ↔ Present s m := exists_congr' rfl
  have hs : ∀ m, Stopped (setCurrent s n) m ↔ Stopped s m := stopped_congr rfl
  have h1 := newCurrent_spec hz n
  have h2 : (∃ m, Stopped s m) → Stopped s (newCurrent s n) := by
    rcases h1 with h | h
    · exact h.2
    · rintro ⟨m, hm⟩
      exact absurd (stopped_present hm) (h.2 m)
  have h3 := newPrevious_spec hz _ h2
  rw [setCurrent_eq] at he hs ⊢
  constructor <;> simp only [he, hs]
  · rintro ⟨m, hm⟩
    rcases h1 with h | h
    · exact h.1
    · exact absurd hm (h.2 m)
  · intro h
    rcases h1 with h' | h'
    · exact absurd h'.1 (h _)
    · exact h'.1
  · exact h2
  · rintro ⟨m, hm, hme⟩
    rcases h3 with h | h
    · exact ⟨h.2.1, h.1⟩
    · exact absurd (h.2 m hme) hm
  · intro h
    rcases h3 with h' | h'
    · exact absurd (h _ h'.1) h'.2.1
    · exact h'.1
  · rintro ⟨m, hm, hms⟩
    rcases h3 with h | h
    · exact h.2.2 ⟨m, hm, hms⟩
    · exact absurd (h.2 m (stopped_present hms)) hm

end Yash.Job
