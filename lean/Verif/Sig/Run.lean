import Verif.Sig.Child
/-!
# The invariant holds in all reachable states
-/
set_option autoImplicit false

namespace Yash.Sig
open Spec

variable {e : Entry} {u : User} {st : State}

/-- The invariant does not depend on the flags about the execution of traps. -/
theorem Inv.traps {st' : State} (h : Inv e u st) (r : Signal → Bool) (a hd : Bool) (sc : Option (List Signal)) (rn : Bool)
    (he : st' = { st with received := r, any := a, handled := hd, scan := sc, running := rn }) : Inv e u st' := by
  subst he
  exact ⟨h.core.congr rfl rfl rfl rfl rfl rfl rfl rfl id rfl rfl, h.ghost.congr rfl rfl, h.main, h.job, h.inter, h.block, h.only⟩

theorem sigHandler_traps (s : Signal) (st : State) : ∃ r a hd sc rn,
    (if st.disp s = .catch then sigHandler s st else st) =
      { st with received := r, any := a, handled := hd, scan := sc, running := rn } := by
  split
  · exact ⟨_, _, _, _, _, rfl⟩
  · exact ⟨_, _, _, _, _, rfl⟩

theorem beginTraps_traps (sigs : List Signal) (st : State) : ∃ r a hd sc rn,
    beginTraps sigs st = { st with received := r, any := a, handled := hd, scan := sc, running := rn } := by
  unfold beginTraps; split
  · exact ⟨_, _, _, _, _, rfl⟩
  · exact ⟨_, _, _, _, _, rfl⟩

theorem nextTrap_traps (sigs : List Signal) (st : State) : ∃ r a hd sc rn,
    (nextTrap sigs st).1 = { st with received := r, any := a, handled := hd, scan := sc, running := rn } := by
  unfold nextTrap
  split
  · exact ⟨_, _, _, _, _, rfl⟩
  · split
    · exact ⟨_, _, _, _, _, rfl⟩
    · split
      · exact ⟨_, _, _, _, _, rfl⟩
      · exact ⟨_, _, _, _, _, rfl⟩
    · simp only []
      split
      · split
        · split
          · exact ⟨_, _, _, _, _, rfl⟩
          · exact ⟨_, _, _, _, _, rfl⟩
        · exact ⟨_, _, _, _, _, rfl⟩
      · exact ⟨_, _, _, _, _, rfl⟩

/-- `exec` with a program that cannot be executed. -/
theorem Inv.execFails (h : Inv e u st) : ∃ st', (atExec st).map setSignals = some st' ∧ Inv e u st' := by
  obtain ⟨s1, r1, l1, _⟩ := h.leave
  refine ⟨setSignals s1, by rw [r1]; rfl, ?_⟩
  exact setSignals_inv l1.core l1.ghost (by intro s hs; simpa using hs) l1.main l1.job l1.inter l1.only

/-- One operation. -/
theorem Inv.step (h : Inv e u st) (hok : e.Ok) (op : Op) : ∃ st' o u', Sig.step e.sigs st op = some (st', o) ∧ Step e u op u' ∧
    Inv e u' st' ∧
    (((∃ q t, op = .enter q t) → ∀ s, u.remembered s = true → u.act s ≠ .ignore) → u' = u.step e op) := by
  cases op with
  | arrive s =>
    obtain ⟨r, a, hd, sc, rn, he⟩ := sigHandler_traps s st
    exact ⟨_, _, u, rfl, .arrive s u, h.traps r a hd sc rn he, fun _ => rfl⟩
  | trap s c =>
    obtain ⟨hb, hp⟩ := h.banish
    refine ⟨_, _, _, rfl, .trap s c u, ?_, fun _ => rfl⟩
    by_cases hs : s = .exit ∨ s ∈ e.sigs
    · rw [if_pos hs]
      exact hb.setTrap hp hs c hok
    · rw [if_neg hs]
      have hal : ¬e.Allowed s := by
        rintro (hh | ⟨hh, _⟩)
        · exact hs (Or.inl hh)
        · exact hs (Or.inr hh)
      have hu : u.trap e s c = { u with remembered := fun _ => false } := by
        unfold User.trap; simp [hal]
      rw [hu]; exact hb
  | jobControl on =>
    obtain ⟨s1, r1, i1, _⟩ := h.setJobControl on
    exact ⟨s1, none, _, by simp [Sig.step, r1], .jobControl on u, i1, fun _ => rfl⟩
  | execFails =>
    obtain ⟨s1, r1, i1⟩ := h.execFails
    refine ⟨s1, none, u, ?_, .execFails u, i1, fun _ => rfl⟩
    simp only [Sig.step]
    cases ha : atExec st with
    | none => rw [ha] at r1; cases r1
    | some s0 => rw [ha] at r1; simp only [Option.map_some, Option.some.injEq] at r1 ⊢; rw [r1]
  | enter q t =>
    obtain ⟨s1, r1, i1, _⟩ := h.enter q t
    have hl : ∀ s, lostAt st s = true → u.remembered s = true ∧ ¬(u.act s).IsCommand := by
      intro s hs
      simp only [lostAt, Bool.and_eq_true] at hs
      have := h.ghost.ghost hs.1.2 s
      exact ⟨this.2 hs.2, this.1⟩
    refine ⟨s1, none, _, by simp [Sig.step, r1], .enter (lostAt st) q t u (fun s hs => (hl s hs).1), i1, ?_⟩
    intro hc
    unfold User.step User.enter
    simp only []
    congr 1
    funext s
    have hd : lostAt st s = true → u.act s = .default := by
      intro hs
      have h1 := hl s hs
      have h2 := hc ⟨q, t, rfl⟩ s h1.1
      cases ha : u.act s with
      | default => rfl
      | ignore => exact absurd ha h2
      | command c => exact absurd ⟨c, ha⟩ h1.2
    by_cases hs : lostAt st s = true
    · simp [hd hs, hs]
    · simp [hs]
  | begin =>
    obtain ⟨r, a, hd, sc, rn, he⟩ := beginTraps_traps e.sigs st
    exact ⟨_, _, u, rfl, .begin u, h.traps r a hd sc rn he, fun _ => rfl⟩
  | next =>
    obtain ⟨r, a, hd, sc, rn, he⟩ := nextTrap_traps e.sigs st
    exact ⟨_, _, u, rfl, .next u, h.traps r a hd sc rn he, fun _ => rfl⟩
  | finish => exact ⟨_, _, u, rfl, .finish u, h.traps _ _ _ _ _ rfl, fun _ => rfl⟩

/-- A sequence of operations. -/
theorem Inv.run (h : Inv e u st) (hok : e.Ok) (ops : List Op) : ∃ st' log u', Sig.run e.sigs ops st = some (st', log) ∧
    Run e u ops u' ∧ Inv e u' st' ∧ (Clean e u ops → u' = u.run e ops) := by
  induction ops generalizing u st with
  | nil => exact ⟨st, [], u, rfl, .nil u, h, fun _ => rfl⟩
  | cons op ops ih =>
    obtain ⟨s1, o, u1, r1, t1, i1, c1⟩ := h.step hok op
    obtain ⟨s2, log, u2, r2, t2, i2, c2⟩ := ih i1
    refine ⟨s2, o.toList ++ log, u2, ?_, .cons t1 t2, i2, ?_⟩
    · simp only [Sig.run, r1, r2]
    · rintro ⟨hc1, hc2⟩
      have := c1 hc1
      subst this
      exact c2 hc2

/-- The start of the shell. -/
theorem start_inv (disp : Signal → Disp) (hd : ∀ s, disp s ≠ .catch) (hk : disp .exit = .dfl ∧ disp .kill = .dfl ∧ disp .stop = .dfl)
    (mask : Signal → Bool) (interactive jc : Bool) (sigs : List Signal) (hi : e.ignored = fun s => decide (disp s = .ign))
    (hb : e.blocked = mask) (hin : e.interactive = interactive) :
    Inv e (User.start e jc) (start disp mask interactive jc) ∧ e.Ok := by
  subst hb hin
  have hok : e.Ok := ⟨by simp [hi, hk], by simp [hi, hk], by simp [hi, hk]⟩
  refine ⟨?_, hok⟩
  have hnc : ∀ s, ¬((User.start e jc).act s).IsCommand := by
    rintro s ⟨c, hh⟩; simp only [User.start] at hh; split at hh <;> cases hh
  apply setSignals_inv (loose := fun _ => false)
  · refine ⟨rfl, rfl, ?_, rfl, ?_, ?_, ?_, ?_, ?_, ?_, fun _ _ _ => rfl, ?_, ?_, ?_, fun _ => rfl, ?_, rfl⟩
    · intro s _; exact ⟨(fun hh => by cases hh), (fun hh => absurd hh (hnc s))⟩
    · intro s _ hh; cases hh
    · intro s h1 _; cases s <;> simp [special] at h1
    · intro s _ _; exact ⟨rfl, by cases s <;> rfl, rfl⟩
    · intro s hh; cases hh
    · intro s hh; cases hh
    · intro s _
      have : special false false false s = none := by cases s <;> rfl
      rw [this]
      simp only [User.start, init, hi, decide_eq_true_eq]
      cases hds : disp s with
      | dfl => simp [DispOk]
      | ign => simp [DispOk]
      | «catch» => exact absurd hds (hd s)
    · intro s hh; exact absurd hh (hnc s)
    · simp [User.start, hok.kill, hok.stop]
    · intro s hh; cases hh
    · intro s hh; simp [hasCommand, init, handlerFor] at hh
  · refine ⟨?_, ?_⟩
    · intro _ s c
      constructor
      · intro hh; exact absurd ⟨c, hh⟩ (hnc s)
      · rintro ⟨hh, _⟩; cases hh
    · intro hh; cases hh
  · intro s hh; cases hh
  · rfl
  · rfl
  · rfl
  · exact id

end Yash.Sig
