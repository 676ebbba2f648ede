import Verif.Sig.Inv
/-!
# Setting a trap keeps the invariant
-/
set_option autoImplicit false

namespace Yash.Sig
open Spec

variable {e : Entry} {u : User} {sp : Signal → Option Disp} {loose : Signal → Bool} {st : State}

theorem put_self {α : Type} (f : Signal → α) (s : Signal) : put f s (f s) = f := by
  funext t; unfold put; split <;> simp_all

theorem record_of_known {s : Signal} (h : Known st s) : record s st = st := by
  unfold record Known at *
  rw [if_pos (by simpa using h)]

/-- The user's view after an allowed `trap` for a signal. -/
def setAct (u : User) (s : Signal) (a : Action) : User :=
  { u with act := put u.act s a, blocked := if a.IsCommand then put u.blocked s false else u.blocked }

theorem handlerFor_catch (c : Option Str) : handlerFor c = .catch ↔ (Action.of c).IsCommand := by
  rcases c with _ | _ | _ <;> simp [handlerFor, Action.of, Action.IsCommand]

theorem handlerFor_ign (c : Option Str) : handlerFor c = .ign ↔ Action.of c = .ignore := by
  rcases c with _ | _ | _ <;> simp [handlerFor, Action.of]

theorem handlerFor_dfl (c : Option Str) : handlerFor c = .dfl ↔ Action.of c = .default := by
  rcases c with _ | _ | _ <;> simp [handlerFor, Action.of]

/-- What `adjust` gives is right for the new action. -/
theorem adjust_ok (s : Signal) (c : Option Str) (st : State) :
    match adjust s (handlerFor c) st with
    | none => special true st.jobSet st.interSet s = some .catch
    | some d => DispOk (Action.of c) (special true st.jobSet st.interSet s) false d ∧ (handlerFor c = .catch → d = .catch) := by
  have key : ∀ (a b : Bool), adjust s (handlerFor c) { st with jobSet := a, interSet := b } = adjust s (handlerFor c)
      { st with jobSet := a, interSet := b } := fun _ _ => rfl
  rcases c with _ | _ | _ <;> cases s <;> simp [adjust, handlerFor, Action.of, special, DispOk] <;>
    cases hj : st.jobSet <;> cases hi : st.interSet <;> simp_all

/-- Recording does not depend on the rest. -/
theorem record_with (s : Signal) (st : State) (g : Signal → Bool) (om am tr : Signal → Bool) (m : Signal → Bool) :
    record s { st with offIgn := g, officialMask := om, acceptMask := am, trapped := tr, mask := m } =
      { record s st with offIgn := g, officialMask := om, acceptMask := am, trapped := tr, mask := m } := by
  unfold record
  simp only []
  split
  · rfl
  · split <;> rfl

theorem Core.install (h : Core e u (special true st.jobSet st.interSet) (fun _ => false) st) {s : Signal} (hs : s ≠ .exit)
    (hk : s ≠ .kill ∧ s ≠ .stop) (c : Option Str) (hany : handlerFor c = .catch → st.anyTrap = true) :
    ∃ st', install s (handlerFor c) (updateSets s (handlerFor c) st) = st' ∧
      Core e (setAct u s (Action.of c)) (special true st.jobSet st.interSet) (fun _ => false) st' ∧
      (∃ f g a b m om am tr, st' = { st with disp := f, offIgn := g, origIgn := a, origDfl := b, mask := m, officialMask := om,
                                             acceptMask := am, trapped := tr }) ∧
      (∀ t, st.mask t = true → st'.mask t = true) ∧
      (st'.trapped = put st.trapped s (decide (handlerFor c = .catch))) ∧
      (handlerFor c = .catch → special true st.jobSet st.interSet s = some .catch ∨ st'.mask s = true) := by
  have hrec := h.record s hs
  have hadj := adjust_ok s c st
  have hadj' : adjust s (handlerFor c) (updateSets s (handlerFor c) st) = adjust s (handlerFor c) st := rfl
  -- the form of the result
  have form : ∃ d m, Sig.install s (handlerFor c) (updateSets s (handlerFor c) st) =
      { Sig.record s st with
        disp := put st.disp s d
        offIgn := put st.offIgn s (decide (handlerFor c = .ign))
        officialMask := if handlerFor c = .catch then put st.officialMask s false else st.officialMask
        acceptMask := if handlerFor c = .catch then put st.acceptMask s false else st.acceptMask
        trapped := put st.trapped s (decide (handlerFor c = .catch))
        mask := m } ∧
      DispOk (Action.of c) (special true st.jobSet st.interSet s) false d ∧ (∀ t, st.mask t = true → m t = true) ∧
      (handlerFor c = .catch → special true st.jobSet st.interSet s = some .catch ∨ m s = true) := by
    unfold Sig.install
    rw [hadj']
    cases ha : adjust s (handlerFor c) st with
    | none =>
      rw [ha] at hadj
      simp only [] at hadj ⊢
      have hkn : Known st s := by
        apply Classical.byContradiction
        intro hn
        have := (h.unknown s hs hn).2.1
        rw [hadj] at this; cases this
      refine ⟨st.disp s, st.mask, ?_, ?_, fun _ hh => hh, fun _ => Or.inl hadj⟩
      · rw [record_of_known hkn, put_self]; rfl
      · have := h.disp s hs
        rw [hadj] at this ⊢
        have hc : st.disp s = .catch := by
          cases hact : u.act s with
          | default => rw [hact] at this; simpa [DispOk] using this
          | ignore => rw [hact] at this; simpa [DispOk] using this
          | command x => rw [hact] at this; exact this
        rw [hc]
        rcases c with _ | _ | _ <;> simp [Action.of, DispOk]
    | some d =>
      rw [ha] at hadj
      simp only [] at hadj ⊢
      refine ⟨d, if d = .catch then fun t => st.mask t || put st.trapped s (decide (handlerFor c = .catch)) t else st.mask, ?_,
        hadj.1, ?_, ?_⟩
      · unfold xsigaction updateSets
        split
        · have := record_with s st (put st.offIgn s (decide (handlerFor c = .ign)))
            (if handlerFor c = .catch then put st.officialMask s false else st.officialMask)
            (if handlerFor c = .catch then put st.acceptMask s false else st.acceptMask)
            (put st.trapped s (decide (handlerFor c = .catch)))
            (fun t => st.mask t || put st.trapped s (decide (handlerFor c = .catch)) t)
          rw [this]
        · have := record_with s st (put st.offIgn s (decide (handlerFor c = .ign)))
            (if handlerFor c = .catch then put st.officialMask s false else st.officialMask)
            (if handlerFor c = .catch then put st.acceptMask s false else st.acceptMask)
            (put st.trapped s (decide (handlerFor c = .catch)))
            st.mask
          rw [this]
      · intro t ht; split <;> simp [ht]
      · intro hc
        rw [if_pos (hadj.2 hc)]
        simp [hc]
  obtain ⟨d, m, he, hd, hm, hmc⟩ := form
  rw [he]
  refine ⟨_, rfl, ?_, ?_, hm, rfl, hmc⟩
  · refine ⟨hrec.inter, hrec.jobs, ?_, ?_, ?_, ?_, ?_, hrec.origIgn, hrec.origDfl, ?_, hrec.fixed, ?_, ?_, ?_, ?_, hrec.valid,
      h.exitMask⟩
    · intro t ht
      by_cases hts : t = s
      · subst hts; simp [setAct, handlerFor_catch]
      · simp only [setAct, put_other _ _ hts]; exact h.trapped t ht
    · simp only [put_other _ _ (Ne.symm hs)]; exact h.trappedExit
    · intro t ht ho
      by_cases hts : t = s
      · subst hts; simp only [put_same, setAct] at ho ⊢; simpa [handlerFor_ign] using ho
      · simp only [setAct, put_other _ _ hts] at ho ⊢; exact h.off t ht ho
    · intro t h1 h2
      by_cases hts : t = s
      · subst hts; simp only [put_same, setAct] at h2 ⊢; simpa [handlerFor_ign] using h2
      · simp only [setAct, put_other _ _ hts] at h2 ⊢; exact h.offSp t h1 h2
    · intro t ht hn
      have hts : t ≠ s := by rintro rfl; exact hn ((record_known t st t).2 (Or.inl rfl))
      have := hrec.unknown t ht hn
      refine ⟨?_, this.2⟩
      simp only [setAct, put_other _ _ hts]
      exact this.1
    · intro t ht
      by_cases hts : t = s
      · subst hts; simp only [put_same, setAct]; exact hd
      · simp only [setAct, put_other _ _ hts]; exact h.disp t ht
    · intro t ht
      have hrt : (Sig.record s st).anyTrap = st.anyTrap := by
        obtain ⟨_, _, _, _, ho⟩ := record_only s st; rw [ho]
      show (Sig.record s st).anyTrap = true
      rw [hrt]
      by_cases hts : t = s
      · subst hts; simp only [put_same, setAct] at ht; exact hany ((handlerFor_catch c).2 ht)
      · simp only [setAct, put_other _ _ hts] at ht; exact h.anyTrap t ht
    · simp only [setAct, put_other _ _ (Ne.symm hk.1), put_other _ _ (Ne.symm hk.2)]; exact h.kill
    · intro t ht
      simp only at ht ⊢
      by_cases hts : t = s
      · subst hts; simp at ht; simp [ht]
      · simp only [put_other _ _ hts] at ht
        have := h.accept t ht
        split
        · rw [put_other _ _ hts]; exact this
        · exact this
    · intro t
      simp only [setAct]
      have hc := handlerFor_catch c
      by_cases hh : handlerFor c = .catch
      · rw [if_pos hh, if_pos (hc.1 hh)]
        unfold put; split
        · rfl
        · exact h.mask t
      · rw [if_neg hh, if_neg (fun g => hh (hc.2 g))]; exact h.mask t
  · obtain ⟨_, _, _, _, ho⟩ := record_only s st
    rw [ho]
    exact ⟨_, _, _, _, _, _, _, _, rfl⟩

/-- The fields about the execution of traps, and the commands, are the same. -/
structure SameTraps (a b : State) : Prop where
  cmd : b.cmd = a.cmd
  received : b.received = a.received
  any : b.any = a.any
  anyTrap : b.anyTrap = a.anyTrap
  handled : b.handled = a.handled
  phantom : b.phantom = a.phantom
  scan : b.scan = a.scan
  running : b.running = a.running

theorem SameTraps.refl (a : State) : SameTraps a a := ⟨rfl, rfl, rfl, rfl, rfl, rfl, rfl, rfl⟩

theorem SameTraps.trans {a b c : State} (h : SameTraps a b) (h' : SameTraps b c) : SameTraps a c :=
  ⟨h'.1.trans h.1, h'.2.trans h.2, h'.3.trans h.3, h'.4.trans h.4, h'.5.trans h.5, h'.6.trans h.6, h'.7.trans h.7, h'.8.trans h.8⟩

theorem OnlyDisp.same {a b : State} (h : OnlyDisp a b) : SameTraps a b := by
  obtain ⟨_, _, _, _, rfl⟩ := h; exact ⟨rfl, rfl, rfl, rfl, rfl, rfl, rfl, rfl⟩

theorem install_same (s : Signal) (d : Disp) (st : State) : SameTraps st (install s d st) := by
  unfold install
  split
  · exact .refl _
  · refine SameTraps.trans ?_ (xsigaction_only _ _ _).same
    split
    · exact ⟨rfl, rfl, rfl, rfl, rfl, rfl, rfl, rfl⟩
    · exact .refl _

theorem Inv.record (h : Inv e u st) (s : Signal) (hs : s ≠ .exit) : Inv e u (record s st) := by
  have hc := h.core.record s hs
  have o := record_only s st
  have hg := o.ghost h.ghost
  revert hc hg
  obtain ⟨_, _, _, _, o⟩ := o
  rw [o]
  intro hc hg
  exact ⟨hc, hg, h.main, h.job, h.inter, h.block, h.only⟩

/-- What `set_trap` does, when the action may be changed. -/
theorem setTrap_allowed (h : Inv e u st) {s : Signal} (hs : s = .exit ∨ s ∈ e.sigs) (c : Option Str)
    (hal : e.Allowed s) (hok : e.Ok) : ∃ st', (st' = st ∨ st' = record s st) ∧ (s = .exit → st' = st) ∧ setTrap s c st =
      if s = .exit then storeCommand s c st'
      else Sig.install s (handlerFor c) (updateSets s (handlerFor c) (storeCommand s c st')) := by
  have hks : ¬(s = .kill ∨ s = .stop) := by
    rintro (rfl | rfl) <;> simp [Entry.Allowed] at hal
  have hig : st.isInteractive = true ∨ (originallyIgnored s st).1 = false := by
    rw [h.core.inter]
    rcases hal with rfl | ⟨_, _, _, hi | hi⟩
    · right; simp [originallyIgnored]
    · left; exact hi
    · right
      unfold originallyIgnored
      split
      · rfl
      · rename_i hse
        split
        · rename_i ho; exact absurd (h.core.origIgn s ho) (by simp [hi])
        · split
          · rfl
          · simp only []
            cases hr : (Sig.record s st).origIgn s with
            | false => rfl
            | true => exact absurd ((h.core.record s hse).origIgn s hr) (by simp [hi])
  refine ⟨if (!st.isInteractive && (st.cmd s).isNone) = true then (originallyIgnored s st).2 else st, ?_, ?_, ?_⟩
  · split
    · unfold originallyIgnored
      split
      · exact Or.inl rfl
      · split
        · exact Or.inl rfl
        · split
          · exact Or.inl rfl
          · exact Or.inr rfl
    · exact Or.inl rfl
  · rintro rfl; split <;> simp [originallyIgnored]
  · unfold Sig.setTrap
    rw [if_neg hks]
    simp only []
    rw [if_neg (c := (_ && _) = true) (by rcases hig with hig | hig <;> simp [hig])]

theorem setTrap_refused (h : Inv e u st) {s : Signal} (hs : s = .exit ∨ s ∈ e.sigs) (c : Option Str)
    (hal : ¬e.Allowed s) : setTrap s c st = st ∨ (s ≠ .exit ∧ setTrap s c st = record s st) := by
  unfold Sig.setTrap
  by_cases hks : s = .kill ∨ s = .stop
  · rw [if_pos hks]; exact Or.inl rfl
  · have hse : s ≠ .exit := by rintro rfl; exact hal (Or.inl rfl)
    have hin : st.isInteractive = false ∧ e.ignored s = true := by
      rw [h.core.inter]
      cases hi : e.interactive with
      | true => exact absurd (Or.inr ⟨hs.resolve_left hse, fun g => hks (Or.inl g), fun g => hks (Or.inr g), Or.inl hi⟩) hal
      | false =>
        cases hg : e.ignored s with
        | true => exact ⟨rfl, rfl⟩
        | false => exact absurd (Or.inr ⟨hs.resolve_left hse, fun g => hks (Or.inl g), fun g => hks (Or.inr g), Or.inr hg⟩) hal
    have hcm : st.cmd s = none := h.core.fixed (by rw [← h.core.inter]; exact hin.1) s hin.2
    rw [if_neg hks]
    simp only [hin.1, hcm, Bool.not_false, Option.isNone_none, Bool.and_true, if_true, Bool.true_and]
    have hor : (originallyIgnored s st).1 = true ∧ ((originallyIgnored s st).2 = st ∨ (originallyIgnored s st).2 = Sig.record s st) := by
      unfold originallyIgnored
      rw [if_neg hse]
      split
      · exact ⟨rfl, Or.inl rfl⟩
      · split
        · rename_i ho; exact absurd (h.core.origDfl s ho) (by simp [hin.2])
        · refine ⟨?_, Or.inr rfl⟩
          have hk := (record_known s st s).2 (Or.inl rfl)
          rcases hk with hk | hk
          · exact absurd ((h.core.record s hse).origDfl s hk) (by simp [hin.2])
          · exact hk
    rw [if_pos hor.1]
    rcases hor.2 with hh | hh
    · exact Or.inl hh
    · exact Or.inr ⟨hse, hh⟩

theorem Core.store (h : Core e u sp loose st) {s : Signal} (hv : s = .exit ∨ s ∈ e.sigs) (hal : e.Allowed s) (hok : e.Ok)
    (c : Option Str) : Core e u sp loose (storeCommand s c st) := by
  unfold storeCommand
  split
  · exact h
  · refine ⟨h.inter, h.jobs, h.trapped, h.trappedExit, h.off, h.offSp, h.unknown, h.origIgn, h.origDfl, h.disp, ?_, ?_, h.kill,
      h.accept, h.mask, ?_, h.exitMask⟩
    · intro hi t ht
      have : t ≠ s := by
        rintro rfl
        rcases hal with rfl | ⟨_, _, _, hh | hh⟩
        · rw [hok.exit] at ht; cases ht
        · rw [hi] at hh; cases hh
        · rw [ht] at hh; cases hh
      simp only [put_other _ _ this]
      exact h.fixed hi t ht
    · intro t ht; simp [h.anyTrap t ht]
    · intro t ht
      by_cases hts : t = s
      · subst hts; exact hv
      · simp only [hasCommand, put_other _ _ hts] at ht; exact h.valid t ht

/-- A change of the user's view that only concerns the `EXIT` trap. -/
theorem Core.exitAct (h : Core e u sp loose st) (a : Action) (ha : a.IsCommand → st.anyTrap = true) :
    Core e { u with act := put u.act .exit a } sp loose st := by
  refine ⟨h.inter, h.jobs, ?_, h.trappedExit, ?_, ?_, ?_, h.origIgn, h.origDfl, ?_, h.fixed, ?_, ?_, h.accept, h.mask, h.valid,
    h.exitMask⟩
  · intro t ht; simp only [put_other _ _ ht]; exact h.trapped t ht
  · intro t ht; simp only [put_other _ _ ht]; exact h.off t ht
  · intro t h1 h2
    have : t ≠ .exit := by rintro rfl; exact h1 h.exitMask
    simp only [put_other _ _ this] at h2; exact h.offSp t h1 h2
  · intro t ht; simp only [put_other _ _ ht]; exact h.unknown t ht
  · intro t ht; simp only [put_other _ _ ht]; exact h.disp t ht
  · intro t ht
    by_cases hte : t = .exit
    · subst hte; simp only [put_same] at ht; exact ha ht
    · simp only [put_other _ _ hte] at ht; exact h.anyTrap t ht
  · simp only [put_other _ _ (show Signal.kill ≠ .exit by decide), put_other _ _ (show Signal.stop ≠ .exit by decide)]
    exact h.kill

/-- The user's memory of the parent's commands does not matter. -/
theorem Core.remember (h : Core e u sp loose st) (r : Signal → Bool) : Core e { u with remembered := r } sp loose st :=
  ⟨h.inter, h.jobs, h.trapped, h.trappedExit, h.off, h.offSp, h.unknown, h.origIgn, h.origDfl, h.disp, h.fixed, h.anyTrap, h.kill,
    h.accept, h.mask, h.valid, h.exitMask⟩

/-- `trap` in a shell whose commands are its own. -/
theorem Inv.setTrap (h : Inv e u st) (hp : st.phantom = false) {s : Signal} (hs : s = .exit ∨ s ∈ e.sigs) (c : Option Str)
    (hok : e.Ok) : Inv e (u.trap e s c) (setTrap s c st) := by
  by_cases hal : e.Allowed s
  · obtain ⟨s0, hs0, hs0', heq⟩ := setTrap_allowed h hs c hal hok
    have hks : s ≠ .kill ∧ s ≠ .stop := by
      constructor <;> (rintro rfl; simp [Entry.Allowed] at hal)
    have h0 : Inv e u s0 := by
      by_cases hse : s = .exit
      · rw [hs0' hse]; exact h
      · rcases hs0 with rfl | rfl
        · exact h
        · exact h.record s hse
    have hp0 : s0.phantom = false := by
      rcases hs0 with rfl | rfl
      · exact hp
      · rw [(record_frame s st).2.1]; exact hp
    have hst : storeCommand s c s0 =
        { s0 with cmd := put s0.cmd s c, anyTrap := s0.anyTrap || decide (handlerFor c = .catch),
                  received := put s0.received s false } := by
      unfold storeCommand; rw [hp0]; rfl
    have hc1 := h0.core.store hs hal hok c
    have hreal : ∀ t d, (u.trap e s c).act t = .command d ↔ (put s0.cmd s c t = some d ∧ d ≠ []) := by
      intro t d
      simp only [User.trap]
      by_cases hts : t = s
      · subst hts
        simp only [hal, and_self, if_true, put_same]
        rcases c with _ | _ | _ <;> simp [Action.of]
        intro hh; subst hh; simp
      · rw [if_neg (fun g => hts g.1), put_other _ _ hts]; exact h0.ghost.real hp0 t d
    rw [heq]
    by_cases hse : s = .exit
    · subst hse
      rw [if_pos rfl]
      have hu : u.trap e .exit c = { u with act := put u.act .exit (.of c), remembered := fun _ => false } := by
        unfold User.trap
        congr 1
        · funext t; simp [hal, put]
        · funext t; simp
      have hc2 := (hc1.exitAct (Action.of c) (by
        intro hh; rw [hst]; simp [(handlerFor_catch c).2 hh])).remember (fun _ => false)
      rw [← hu] at hc2
      revert hc2
      rw [hst]
      intro hc2
      exact ⟨hc2, ⟨fun _ => hreal, fun hh => by rw [hp0] at hh; cases hh⟩, h0.main, h0.job, h0.inter, h0.block, h0.only⟩
    · rw [if_neg hse]
      have hj : (storeCommand s c s0).jobSet = s0.jobSet ∧ (storeCommand s c s0).interSet = s0.interSet := by rw [hst]; exact ⟨rfl, rfl⟩
      rw [← hj.1, ← hj.2] at hc1
      obtain ⟨st', hi, hcore, hf, hm, ht, hb⟩ := hc1.install hse hks c (by
        intro hh; rw [hst]; simp [hh])
      rw [hi]
      have hu : u.trap e s c = { setAct u s (.of c) with remembered := fun _ => false } := by
        unfold User.trap setAct
        congr 1
        · funext t; simp [hal, put]
        · funext t
          simp only [hal, hse, true_and, ne_eq, not_false_eq_true]
          by_cases hcm : (Action.of c).IsCommand
          · simp [hcm, put]
          · simp [hcm]
      have hcore := hcore.remember (fun _ => false)
      rw [← hu] at hcore
      obtain ⟨f, g, a, b, m, om, am, tr, rfl⟩ := hf
      refine ⟨hcore, ⟨?_, ?_⟩, ?_, ?_, ?_, ?_, ?_⟩
      · intro _; rw [hst]; exact hreal
      · intro hh; rw [hst] at hh; exact absurd hh (by simp [hp0])
      · rw [hst]; exact h0.main
      · rw [hst]; exact h0.job
      · rw [hst]; exact h0.inter
      · intro t htt
        have hmt : s0.mask t = true → m t = true := by
          intro hh; apply hm; rw [hst]; exact hh
        simp only at ht hb
        by_cases hts : t = s ∧ handlerFor c = .catch
        · rcases hb hts.2 with hb | hb
          · apply hmt
            apply h0.block
            rw [hts.1]
            rw [hst] at hb
            simp only at hb
            revert hb
            cases s <;> simp [special] <;> (try split) <;> simp_all
          · rw [hts.1]; exact hb
        · apply hmt
          apply h0.block
          rcases htt with htt | htt | htt
          · left
            simp only [ht] at htt
            by_cases h1 : t = s
            · subst h1; simp only [put_same] at htt; exact absurd ⟨rfl, by simpa using htt⟩ hts
            · simp only [put_other _ _ h1] at htt; rw [hst] at htt; exact htt
          · exact Or.inr (Or.inl htt)
          · rw [hst] at htt; exact Or.inr (Or.inr htt)
      · rw [hst]; exact h0.only
  · have hu : u.trap e s c = { u with remembered := fun _ => false } := by
      unfold User.trap
      congr 1
      · funext t; simp [hal]
      · funext t; simp [hal]
    have key : ∀ st', Inv e u st' → st'.phantom = false → Inv e { u with remembered := fun _ => false } st' := by
      intro st' h' hp'
      exact ⟨h'.core.remember _, ⟨h'.ghost.real, fun hh => by rw [hp'] at hh; cases hh⟩, h'.main, h'.job, h'.inter, h'.block, h'.only⟩
    rw [hu]
    rcases setTrap_refused h hs c hal with hh | ⟨hse, hh⟩
    · rw [hh]; exact key _ h hp
    · rw [hh]; exact key _ (h.record s hse) (by rw [(record_frame s st).2.1]; exact hp)

end Yash.Sig
