import Verif.Sig.Traps
/-!
# Histories without signals

When no signal arrives, nested subshells find nothing to be reset a second time.
-/
set_option autoImplicit false

namespace Yash.Sig
open Spec

variable {e : Entry} {u : User} {st : State}

/-- No signal has been received, and a subshell that only remembers commands knows that it has none. -/
def Quiet (st : State) : Prop := st.any = false ∧ (st.phantom = true → st.anyTrap = false)

theorem setTrap_phantom (s : Signal) (c : Option Str) (st : State) : (setTrap s c st).phantom = st.phantom := by
  unfold setTrap
  split
  · rfl
  · simp only []
    have h0 : ∃ s0, (if (!st.isInteractive && (st.cmd s).isNone) = true then (originallyIgnored s st).2 else st) = s0 ∧
        OnlyDisp st s0 := by
      refine ⟨_, rfl, ?_⟩
      split
      · exact originallyIgnored_only s st
      · exact .refl _
    obtain ⟨s0, e0, o0⟩ := h0
    have r0 : s0.phantom = st.phantom := o0.same.phantom
    rw [e0]
    have hc : (storeCommand s c s0).phantom = s0.phantom := by unfold storeCommand; split <;> rfl
    split
    · exact r0
    · split
      · rw [hc, r0]
      · rw [(install_same s (handlerFor c) _).phantom]
        show (storeCommand s c s0).phantom = _
        rw [hc, r0]

theorem Quiet.lost (h : Quiet st) (s : Signal) : lostAt st s = false := by
  unfold lostAt
  cases hp : st.phantom with
  | false => simp
  | true => simp [h.1, h.2 hp]

theorem Quiet.phantomize (h : Quiet st) (sigs : List Signal) : Quiet (phantomize sigs st) := by
  unfold Sig.phantomize
  split
  · exact h
  · exact ⟨rfl, fun _ => rfl⟩

theorem Quiet.step (hq : Quiet st) (h : Inv e u st) (op : Op) (hop : ∀ s, op ≠ .arrive s) {st' : State}
    {o : Option (Signal × Str)} (hs : step e.sigs st op = some (st', o)) : Quiet st' := by
  have same : ∀ {s1}, SameTraps st s1 → Quiet s1 := fun hh => ⟨hh.any.trans hq.1, fun hp => by
    rw [hh.anyTrap]; exact hq.2 (by rw [← hh.phantom]; exact hp)⟩
  cases op with
  | arrive s => exact absurd rfl (hop s)
  | trap s c =>
    simp only [Sig.step, Option.some.injEq, Prod.mk.injEq] at hs
    obtain ⟨rfl, rfl⟩ := hs
    obtain ⟨b1, _⟩ := banish_frame e.sigs st
    have hb := h.banish.2
    split
    · exact ⟨((setTrap_scan s c _).1.any.trans b1.any).trans hq.1, fun hp => by rw [setTrap_phantom, hb] at hp; cases hp⟩
    · exact ⟨b1.any.trans hq.1, fun hp => by rw [hb] at hp; cases hp⟩
  | jobControl on =>
    obtain ⟨s1, r1, i1, t1⟩ := h.setJobControl on
    simp only [Sig.step, r1, Option.map_some, Option.some.injEq, Prod.mk.injEq] at hs
    obtain ⟨rfl, rfl⟩ := hs
    exact same t1
  | execFails =>
    obtain ⟨s1, r1, t1, _⟩ := atExec_both h
    simp only [Sig.step, r1, Option.map_some, Option.some.injEq, Prod.mk.injEq] at hs
    obtain ⟨rfl, rfl⟩ := hs
    exact same (t1.trans (setSignals_frame s1).2)
  | enter q t =>
    obtain ⟨s1, r1, _, _, _, _, _, h1, h2, h3, _⟩ := h.enter q t
    simp only [Sig.step, r1, Option.map_some, Option.some.injEq, Prod.mk.injEq] at hs
    obtain ⟨rfl, rfl⟩ := hs
    have := hq.phantomize e.sigs
    exact ⟨h3.trans this.1, fun hp => by rw [h2]; exact this.2 (by rw [← h1]; exact hp)⟩
  | begin =>
    simp only [Sig.step, Option.some.injEq, Prod.mk.injEq] at hs
    obtain ⟨rfl, rfl⟩ := hs
    unfold beginTraps
    split
    · exact hq
    · exact ⟨rfl, hq.2⟩
  | next =>
    simp only [Sig.step, Option.some.injEq] at hs
    have hs1 : (nextTrap e.sigs st).1 = st' := by rw [hs]
    subst hs1
    unfold nextTrap
    split
    · exact hq
    · split
      · exact hq
      · split
        · exact ⟨rfl, hq.2⟩
        · exact hq
      · simp only []
        repeat' split
        all_goals exact ⟨hq.1, hq.2⟩
  | finish =>
    simp only [Sig.step, Option.some.injEq, Prod.mk.injEq] at hs
    obtain ⟨rfl, rfl⟩ := hs
    exact hq

/-- What the user knows is what is documented. -/
theorem Full.quiet (h : Full e u st) (hq : Quiet st) (hok : e.Ok) (ops : List Op) (ha : ∀ s, Op.arrive s ∉ ops) :
    ∃ st' log, Sig.run e.sigs ops st = some (st', log) ∧ Full e (u.run e ops) st' := by
  induction ops generalizing u st with
  | nil => exact ⟨st, [], rfl, h⟩
  | cons op ops ih =>
    obtain ⟨s1, o, u1, r1, t1, i1, _, c1⟩ := h.step hok op
    have q1 := hq.step h.inv op (fun s hs => ha s (by simp [hs])) r1
    have hu : Full e (u.step e op) s1 := by
      by_cases hen : ∃ q t, op = .enter q t
      · obtain ⟨q, t, rfl⟩ := hen
        obtain ⟨s2, r2, i2, _⟩ := h.inv.enter q t
        have hl : lostAt st = fun _ => false := funext hq.lost
        rw [hl] at i2
        have : s2 = s1 := by
          simp only [Sig.step, r2, Option.map_some, Option.some.injEq, Prod.mk.injEq] at r1
          exact r1.1
        subst this
        refine ⟨i2, ?_, i1.short⟩
        exact h.found.step h.inv hok (.enter q t) r1 (.enter (fun _ => false) q t u (by simp))
      · have := c1 (fun hh => absurd hh hen)
        subst this
        exact i1
    obtain ⟨s2, log, r2, i2⟩ := ih hu q1 (fun s hs => ha s (List.mem_cons_of_mem _ hs))
    exact ⟨s2, o.toList ++ log, by simp only [Sig.run, r1, r2], i2⟩

end Yash.Sig
