import Verif.Sig.Trap
/-!
# Subshells keep the invariant
-/
set_option autoImplicit false

namespace Yash.Sig
open Spec

variable {e : Entry} {u : User} {sp : Signal → Option Disp} {loose : Signal → Bool} {st : State}

/-- The loop of `banish_phantoms`. -/
theorem banish_fold (l : List Signal) (st : State) :
    l.foldl (fun st s => if hasCommand st s then { st with cmd := put st.cmd s none } else st) st =
      { st with cmd := fun s => if s ∈ l ∧ hasCommand st s = true then none else st.cmd s } := by
  induction l generalizing st with
  | nil => simp
  | cons a l ih =>
    rw [List.foldl_cons, ih]
    by_cases ha : hasCommand st a = true
    · rw [if_pos ha]
      congr 1
      funext s
      simp only [hasCommand, put, List.mem_cons] at ha ⊢
      by_cases hs : s = a
      · subst hs; simp only [decide_eq_true_eq] at ha; simp [ha]
      · simp [hs]
    · rw [if_neg ha]
      congr 1
      funext s
      simp only [List.mem_cons]
      by_cases hs : s = a
      · subst hs; simp [ha]
      · simp [hs]

theorem Inv.banish (h : Inv e u st) : Inv e { u with remembered := fun _ => false } (banish e.sigs st) ∧
    (Sig.banish e.sigs st).phantom = false := by
  unfold Sig.banish
  by_cases hp : st.phantom = true
  · rw [hp]
    simp only [Bool.not_true, Bool.false_eq_true, if_false]
    rw [banish_fold]
    have hcmd : ∀ s, hasCommand st s = true → s ∈ Signal.exit :: e.sigs := by
      intro s hs; rcases h.core.valid s hs with rfl | hh <;> simp [*]
    have hfun : (fun s => if s ∈ Signal.exit :: e.sigs ∧ hasCommand { st with phantom := false } s = true then none
          else st.cmd s) = (fun s => if hasCommand st s = true then none else st.cmd s) := by
      funext s
      by_cases hs : hasCommand st s = true
      · rw [if_pos ⟨hcmd s hs, hs⟩, if_pos hs]
      · rw [if_neg (fun g => hs g.2), if_neg hs]
    have hfun' : (fun s => if s ∈ Signal.exit :: e.sigs ∧ hasCommand { st with phantom := false } s = true then none
          else ({ st with phantom := false } : State).cmd s) = (fun s => if hasCommand st s = true then none else st.cmd s) := hfun
    rw [hfun']
    have hno : ∀ s, handlerFor (if hasCommand st s = true then none else st.cmd s) ≠ .catch := by
      intro s; split
      · simp [handlerFor]
      · rename_i hh; simpa [hasCommand] using hh
    refine ⟨⟨⟨h.core.inter, h.core.jobs, h.core.trapped, h.core.trappedExit, h.core.off, h.core.offSp, h.core.unknown,
      h.core.origIgn, h.core.origDfl, h.core.disp, ?_, h.core.anyTrap, h.core.kill, h.core.accept, h.core.mask, ?_,
      h.core.exitMask⟩, ⟨?_, ?_⟩, h.main, h.job, h.inter, h.block, h.only⟩, rfl⟩
    · intro hi s hs
      simp only []
      split
      · rfl
      · exact h.core.fixed hi s hs
    · intro s hs; exact absurd (by simpa [hasCommand] using hs) (hno s)
    · intro _ s c
      constructor
      · intro hh; exact absurd ⟨c, hh⟩ (h.ghost.ghost hp s).1
      · rintro ⟨h1, h2⟩
        have := hno s
        simp only [] at h1
        rw [h1] at this
        cases c with
        | nil => exact absurd rfl h2
        | cons a b => exact absurd rfl this
    · intro hh; cases hh
  · have hp' : st.phantom = false := by simpa using hp
    simp only [hp', Bool.not_false, if_true]
    exact ⟨⟨h.core.remember _, ⟨h.ghost.real, fun hh => absurd hh hp⟩, h.main, h.job, h.inter, h.block, h.only⟩, trivial⟩

/-- The user's view in the loop of `phantomize_traps`: the actions of these signals have been reset. -/
def resetActs (u : User) (st : State) (l : List Signal) : User :=
  { u with act := fun s => if s ∈ l ∧ hasCommand st s = true then .default else u.act s }

/-- What the loop of `phantomize_traps` does not change. -/
structure SameFlags (a b : State) : Prop where
  cmd : b.cmd = a.cmd
  any : b.any = a.any
  anyTrap : b.anyTrap = a.anyTrap
  handled : b.handled = a.handled
  phantom : b.phantom = a.phantom
  main : b.mainSet = a.mainSet
  job : b.jobSet = a.jobSet
  inter : b.interSet = a.interSet
  jobControl : b.jobControl = a.jobControl
  now : b.interactiveNow = a.interactiveNow
  isInter : b.isInteractive = a.isInteractive

theorem SameFlags.refl (a : State) : SameFlags a a := ⟨rfl, rfl, rfl, rfl, rfl, rfl, rfl, rfl, rfl, rfl, rfl⟩

theorem SameFlags.trans {a b c : State} (h : SameFlags a b) (h' : SameFlags b c) : SameFlags a c :=
  ⟨h'.1.trans h.1, h'.2.trans h.2, h'.3.trans h.3, h'.4.trans h.4, h'.5.trans h.5, h'.6.trans h.6, h'.7.trans h.7, h'.8.trans h.8,
    h'.9.trans h.9, h'.10.trans h.10, h'.11.trans h.11⟩

theorem Core.phantomize1 (h : Core e u (special true st.jobSet st.interSet) (fun _ => false) st) (hp : st.phantom = true)
    (s : Signal) :
    Core e { u with act := fun t => if t = s ∧ hasCommand st t = true then .default else u.act t }
      (special true st.jobSet st.interSet) (fun _ => false) (phantomize1 st s) ∧
    SameFlags st (phantomize1 st s) ∧ (∀ t, st.mask t = true → (Sig.phantomize1 st s).mask t = true) ∧
    (∀ t, (Sig.phantomize1 st s).trapped t = true → st.trapped t = true) := by
  unfold Sig.phantomize1
  by_cases hc : hasCommand st s = true
  · simp only [hc, if_true]
    have hsome : (st.cmd s).isNone = false := by
      unfold hasCommand at hc
      cases hh : st.cmd s with
      | none => rw [hh] at hc; simp [handlerFor] at hc
      | some x => rfl
    by_cases hks : s = .kill ∨ s = .stop
    · have : setTrap s none st = st := by unfold setTrap; rw [if_pos hks]
      rw [this]
      have hu : ({ u with act := fun t => if t = s ∧ hasCommand st t = true then .default else u.act t } : User) = u := by
        have : (fun t => if t = s ∧ hasCommand st t = true then Action.default else u.act t) = u.act := by
          funext t; split
          · rename_i hh
            rw [hh.1]
            rcases hks with rfl | rfl
            · exact h.kill.1.symm
            · exact h.kill.2.symm
          · rfl
        rw [this]
      rw [hu]
      exact ⟨h.congr rfl rfl rfl rfl rfl rfl rfl rfl id rfl rfl, ⟨rfl, rfl, rfl, rfl, rfl, rfl, rfl, rfl, rfl, rfl, rfl⟩,
        fun _ hh => hh, fun _ hh => hh⟩
    · have hst : setTrap s none st = if s = .exit then st else Sig.install s .dfl (updateSets s .dfl st) := by
        unfold setTrap
        rw [if_neg hks]
        simp [hsome, storeCommand, hp, handlerFor]
      rw [hst]
      by_cases hse : s = .exit
      · rw [if_pos hse]
        have hu : ({ u with act := fun t => if t = s ∧ hasCommand st t = true then .default else u.act t } : User) =
            { u with act := put u.act .exit .default } := by
          congr 1; funext t; subst hse
          by_cases ht : t = .exit
          · subst ht; simp [hc]
          · simp [ht, put]
        rw [hu]
        exact ⟨(h.exitAct .default (by rintro ⟨c, hh⟩; cases hh)).congr rfl rfl rfl rfl rfl rfl rfl rfl id rfl rfl,
          ⟨rfl, rfl, rfl, rfl, rfl, rfl, rfl, rfl, rfl, rfl, rfl⟩, fun _ hh => hh, fun _ hh => hh⟩
      · rw [if_neg hse]
        obtain ⟨st', hi, hcore, hf, hm, ht, hb⟩ := h.install hse ⟨fun g => hks (Or.inl g), fun g => hks (Or.inr g)⟩ none
          (by simp [handlerFor])
        have hu : ({ u with act := fun t => if t = s ∧ hasCommand st t = true then .default else u.act t } : User) =
            setAct u s (Action.of none) := by
          unfold setAct
          have : ¬(Action.of none).IsCommand := by rintro ⟨c, hh⟩; cases hh
          rw [if_neg this]
          congr 1; funext t
          by_cases ht : t = s
          · subst ht; simp [hc, Action.of]
          · simp [ht, put]
        rw [hu]
        have hi' : Sig.install s .dfl (updateSets s .dfl st) = st' := hi
        rw [hi']
        refine ⟨hcore.congr rfl rfl rfl rfl rfl rfl rfl rfl id rfl rfl, ?_, hm, ?_⟩
        · obtain ⟨f, g, a, b, m, om, am, tr, rfl⟩ := hf
          exact ⟨rfl, rfl, rfl, rfl, rfl, rfl, rfl, rfl, rfl, rfl, rfl⟩
        · intro t hh
          rw [ht] at hh
          by_cases h1 : t = s
          · subst h1; simp [handlerFor] at hh
          · rwa [put_other _ _ h1] at hh
  · have hc' : hasCommand st s = false := by simpa using hc
    simp only [hc', Bool.false_eq_true, if_false]
    have hu : ({ u with act := fun t => if t = s ∧ hasCommand st t = true then .default else u.act t } : User) = u := by
      have : (fun t => if t = s ∧ hasCommand st t = true then Action.default else u.act t) = u.act := by
        funext t; split
        · rename_i hh; rw [hh.1] at hh; exact absurd hh.2 hc
        · rfl
      rw [this]
    rw [hu]
    exact ⟨h.congr rfl rfl rfl rfl rfl rfl rfl rfl id rfl rfl, ⟨rfl, rfl, rfl, rfl, rfl, rfl, rfl, rfl, rfl, rfl, rfl⟩,
        fun _ hh => hh, fun _ hh => hh⟩

theorem Core.phantomizeFold (l : List Signal) : ∀ {u : User} {st : State},
    Core e u (special true st.jobSet st.interSet) (fun _ => false) st → st.phantom = true →
    Core e (resetActs u st l) (special true st.jobSet st.interSet) (fun _ => false) (l.foldl Sig.phantomize1 st) ∧
    SameFlags st (l.foldl Sig.phantomize1 st) ∧ (∀ t, st.mask t = true → (l.foldl Sig.phantomize1 st).mask t = true) ∧
    (∀ t, (l.foldl Sig.phantomize1 st).trapped t = true → st.trapped t = true) := by
  induction l with
  | nil =>
    intro u st h hp
    have : resetActs u st [] = u := by unfold resetActs; simp
    rw [this]
    exact ⟨h, .refl _, fun _ hh => hh, fun _ hh => hh⟩
  | cons a l ih =>
    intro u st h hp
    obtain ⟨h1, f1, m1, t1⟩ := h.phantomize1 hp a
    rw [← f1.job, ← f1.inter] at h1
    obtain ⟨h2, f2, m2, t2⟩ := ih h1 (by rw [f1.phantom]; exact hp)
    rw [List.foldl_cons]
    refine ⟨?_, f1.trans f2, fun t hh => m2 t (m1 t hh), fun t hh => t1 t (t2 t hh)⟩
    have hu : resetActs u st (a :: l) =
        resetActs { u with act := fun t => if t = a ∧ hasCommand st t = true then .default else u.act t } (Sig.phantomize1 st a) l := by
      unfold resetActs
      congr 1
      funext t
      have : hasCommand (Sig.phantomize1 st a) t = hasCommand st t := by unfold hasCommand; rw [f1.cmd]
      rw [this]
      by_cases hc : hasCommand st t = true
      · by_cases ht : t = a
        · subst ht; simp [hc]
        · simp [ht]
      · simp [hc]
    rw [hu]
    rw [f1.job, f1.inter] at h2
    exact h2

/-- The signals that are lost: those that are only remembered, unless `phantomize_traps` finds that nothing is to be done. -/
def lostAt (st : State) (s : Signal) : Bool := (st.anyTrap || st.any) && st.phantom && hasCommand st s

theorem Inv.phantomize (h : Inv e u st) :
    Inv e { u with act := fun s => if (u.act s).IsCommand ∨ lostAt st s = true then .default else u.act s
                   remembered := fun s => u.remembered s || decide (u.act s).IsCommand } (phantomize e.sigs st) ∧
    SameFlags { st with any := (Sig.phantomize e.sigs st).any, anyTrap := (Sig.phantomize e.sigs st).anyTrap, phantom := (Sig.phantomize e.sigs st).phantom } (Sig.phantomize e.sigs st) ∧
    (∀ s, (Sig.phantomize e.sigs st).trapped s = false) := by
  unfold Sig.phantomize
  by_cases hc : (!st.anyTrap && !st.any) = true
  · rw [if_pos hc]
    simp at hc
    have hno : ∀ s, ¬(u.act s).IsCommand := by
      intro s hs; have := h.core.anyTrap s hs; rw [hc.1] at this; cases this
    have hlost : ∀ s, lostAt st s = false := by intro s; simp [lostAt, hc]
    have hu : ({ u with act := fun s => if (u.act s).IsCommand ∨ lostAt st s = true then .default else u.act s
                        remembered := fun s => u.remembered s || decide (u.act s).IsCommand } : User) = u := by
      simp [hno, hlost]
    rw [hu]
    refine ⟨h, .refl _, ?_⟩
    intro s
    cases ht : st.trapped s with
    | false => rfl
    | true =>
      by_cases hs : s = .exit
      · subst hs; rw [h.core.trappedExit] at ht; cases ht
      · exact absurd ((h.core.trapped s hs).1 ht) (hno s)
  · rw [if_neg hc]
    have hany : (st.anyTrap || st.any) = true := by simpa [Classical.or_iff_not_imp_left] using hc
    have h0 : Core e u (special true st.jobSet st.interSet) (fun _ => false) { st with phantom := true } :=
      h.core.congr rfl rfl rfl rfl rfl rfl rfl rfl id rfl rfl
    obtain ⟨h1, f1, m1, t1⟩ := Core.phantomizeFold (.exit :: e.sigs) (st := { st with phantom := true }) h0 rfl
    have hcmd : ∀ s, hasCommand st s = true → s ∈ Signal.exit :: e.sigs := by
      intro s hs; rcases h.core.valid s hs with rfl | hh <;> simp [*]
    have hiff : ∀ s, ((u.act s).IsCommand ∨ lostAt st s = true) ↔ hasCommand st s = true := by
      intro s
      simp only [lostAt, hany, Bool.true_and]
      cases hp : st.phantom with
      | true =>
        simp only [Bool.true_and]
        exact ⟨fun hh => hh.resolve_left (h.ghost.ghost hp s).1, Or.inr⟩
      | false =>
        simp only [Bool.false_and, Bool.false_eq_true, or_false]
        constructor
        · rintro ⟨c, hh⟩
          obtain ⟨h1, h2⟩ := (h.ghost.real hp s c).1 hh
          unfold hasCommand; rw [h1]
          cases c with
          | nil => exact absurd rfl h2
          | cons a b => rfl
        · intro hh
          unfold hasCommand at hh
          cases hcm : st.cmd s with
          | none => rw [hcm] at hh; simp [handlerFor] at hh
          | some x =>
            cases x with
            | nil => rw [hcm] at hh; simp [handlerFor] at hh
            | cons a b => exact ⟨a :: b, (h.ghost.real hp s _).2 ⟨hcm, by simp⟩⟩
    have hu : (resetActs u { st with phantom := true } (.exit :: e.sigs)) =
        { u with act := fun s => if (u.act s).IsCommand ∨ lostAt st s = true then .default else u.act s } := by
      unfold resetActs
      congr 1
      funext s
      have : hasCommand { st with phantom := true } s = hasCommand st s := rfl
      rw [this]
      by_cases hs : hasCommand st s = true
      · rw [if_pos ⟨hcmd s hs, hs⟩, if_pos ((hiff s).2 hs)]
      · rw [if_neg (fun g => hs g.2), if_neg (fun g => hs ((hiff s).1 g))]
    rw [hu] at h1
    have hnc : ∀ s, ¬(if (u.act s).IsCommand ∨ lostAt st s = true then Action.default else u.act s).IsCommand := by
      intro s; split
      · rintro ⟨c, hh⟩; cases hh
      · rename_i hh; exact fun g => hh (Or.inl g)
    have htr : ∀ s, ((Signal.exit :: e.sigs).foldl Sig.phantomize1 { st with phantom := true }).trapped s = false := by
      intro s
      cases ht : ((Signal.exit :: e.sigs).foldl Sig.phantomize1 { st with phantom := true }).trapped s with
      | false => rfl
      | true =>
        by_cases hs : s = .exit
        · subst hs; rw [h1.trappedExit] at ht; cases ht
        · exact absurd ((h1.trapped s hs).1 ht) (hnc s)
    generalize hst : ((Signal.exit :: e.sigs).foldl Sig.phantomize1 { st with phantom := true }) = s1 at *
    refine ⟨⟨?_, ⟨?_, ?_⟩, ?_, ?_, ?_, ?_, ?_⟩, ?_, htr⟩
    · have : (special true s1.jobSet s1.interSet) = special true st.jobSet st.interSet := by rw [f1.job, f1.inter]
      simp only [this]
      have h2 := h1.remember (fun s => u.remembered s || decide (u.act s).IsCommand)
      exact ⟨h2.inter, h2.jobs, h2.trapped, h2.trappedExit, h2.off, h2.offSp, h2.unknown, h2.origIgn, h2.origDfl, h2.disp, h2.fixed,
        fun s hs => absurd hs (hnc s), h2.kill, h2.accept, h2.mask, h2.valid, h2.exitMask⟩
    · intro hh; simp only [f1.phantom] at hh; cases hh
    · intro _ s
      refine ⟨hnc s, ?_⟩
      intro hh
      have hh : hasCommand st s = true := by
        unfold hasCommand at hh ⊢; simp only [f1.cmd] at hh; exact hh
      have := (hiff s).2 hh
      simp only [Bool.or_eq_true, decide_eq_true_eq]
      rcases this with hcm | hl
      · exact Or.inr hcm
      · left
        simp only [lostAt, Bool.and_eq_true] at hl
        exact (h.ghost.ghost hl.1.2 s).2 hh
    · simp only [f1.main]; exact h.main
    · simp only [f1.job, f1.jobControl]; exact h.job
    · simp only [f1.inter, f1.now]; exact h.inter
    · intro s hs
      apply m1
      apply h.block
      simp only [htr] at hs
      rcases hs with hs | hs | hs
      · cases hs
      · exact Or.inr (Or.inl hs)
      · simp only [f1.inter] at hs; exact Or.inr (Or.inr hs)
    · simp only [f1.now, f1.isInter]; exact h.only
    · exact ⟨f1.cmd, rfl, rfl, f1.handled, rfl, f1.main, f1.job, f1.inter, f1.jobControl, f1.now, f1.isInter⟩

/-- A signal that the shell needs itself becomes ignored for programs. -/
theorem Core.ignoreSpecial (h : Core e u sp loose st) {s : Signal} (hs : s ≠ .exit ∧ s ≠ .kill ∧ s ≠ .stop) (hsp : sp s ≠ none)
    (hn : ¬(u.act s).IsCommand) :
    Core e { u with act := put u.act s .ignore } sp loose { st with offIgn := put st.offIgn s true } := by
  have hcm : ¬(Action.ignore).IsCommand := by rintro ⟨c, hh⟩; cases hh
  refine ⟨h.inter, h.jobs, ?_, h.trappedExit, ?_, ?_, ?_, h.origIgn, h.origDfl, ?_, h.fixed, ?_, ?_, h.accept, h.mask, h.valid,
    h.exitMask⟩
  · intro t ht
    by_cases hts : t = s
    · subst hts; simp only [put_same]; exact ⟨fun hh => absurd ((h.trapped t ht).1 hh) hn, fun hh => absurd hh hcm⟩
    · simp only [put_other _ _ hts]; exact h.trapped t ht
  · intro t ht ho
    by_cases hts : t = s
    · subst hts; simp
    · simp only [put_other _ _ hts] at ho ⊢; exact h.off t ht ho
  · intro t h1 h2
    by_cases hts : t = s
    · subst hts; simp
    · simp only [put_other _ _ hts] at h2 ⊢; exact h.offSp t h1 h2
  · intro t ht hk
    have := h.unknown t ht hk
    have hts : t ≠ s := by rintro rfl; exact hsp this.2.1
    simp only [put_other _ _ hts]; exact this
  · intro t ht
    by_cases hts : t = s
    · subst hts
      have := h.disp t ht
      simp only [put_same]
      cases hsv : sp t with
      | none => exact absurd hsv hsp
      | some d =>
        rw [hsv] at this
        cases ha : u.act t with
        | default => rw [ha] at this; simpa [DispOk] using this
        | ignore => rw [ha] at this; simpa [DispOk] using this
        | command c => exact absurd ⟨c, ha⟩ hn
    · simp only [put_other _ _ hts]; exact h.disp t ht
  · intro t ht
    by_cases hts : t = s
    · subst hts; simp only [put_same] at ht; exact absurd ht hcm
    · simp only [put_other _ _ hts] at ht; exact h.anyTrap t ht
  · simp only [put_other _ _ (Ne.symm hs.2.1), put_other _ _ (Ne.symm hs.2.2)]; exact h.kill

/-- A signal that the shell does not need itself becomes ignored. -/
theorem Core.ignorePlain (h : Core e u sp loose st) {s : Signal} (hs : s ≠ .exit ∧ s ≠ .kill ∧ s ≠ .stop) (hsp : sp s = none)
    (hn : ¬(u.act s).IsCommand) :
    Core e { u with act := put u.act s .ignore } sp loose { xsigaction s .ign st with offIgn := put st.offIgn s true } := by
  have hcm : ¬(Action.ignore).IsCommand := by rintro ⟨c, hh⟩; cases hh
  have hr := h.record s hs.1
  obtain ⟨_, _, _, _, ho⟩ := record_only s st
  have hof : (Sig.record s st).offIgn = st.offIgn := (record_frame s st).2.2.2.1
  have htr : (Sig.record s st).trapped = st.trapped := (record_frame s st).2.2.1
  unfold xsigaction
  refine ⟨hr.inter, hr.jobs, ?_, hr.trappedExit, ?_, ?_, ?_, hr.origIgn, hr.origDfl, ?_, hr.fixed, ?_, ?_, hr.accept, hr.mask,
    hr.valid, h.exitMask⟩
  · intro t ht
    simp only [htr]
    by_cases hts : t = s
    · subst hts; simp only [put_same]; exact ⟨fun hh => absurd ((h.trapped t ht).1 hh) hn, fun hh => absurd hh hcm⟩
    · simp only [put_other _ _ hts]; exact h.trapped t ht
  · intro t ht ho
    by_cases hts : t = s
    · subst hts; simp
    · simp only [put_other _ _ hts] at ho ⊢; exact h.off t ht ho
  · intro t h1 h2
    by_cases hts : t = s
    · subst hts; exact absurd hsp h1
    · simp only [put_other _ _ hts] at h2 ⊢; exact h.offSp t h1 h2
  · intro t ht hk
    have hts : t ≠ s := by rintro rfl; exact hk ((record_known t st t).2 (Or.inl rfl))
    simp only [put_other _ _ hts]; exact hr.unknown t ht hk
  · intro t ht
    by_cases hts : t = s
    · subst hts; simp [DispOk, hsp]
    · simp only [put_other _ _ hts]; exact h.disp t ht
  · intro t ht
    by_cases hts : t = s
    · subst hts; simp only [put_same] at ht; exact absurd ht hcm
    · simp only [put_other _ _ hts] at ht; exact hr.anyTrap t ht
  · simp only [put_other _ _ (Ne.symm hs.2.1), put_other _ _ (Ne.symm hs.2.2)]; exact h.kill

/-- The user's view with more signals ignored. -/
def ignoring (l : List Signal) (u : User) : User := { u with act := fun s => if s ∈ l then .ignore else u.act s }

theorem ignoring_not {l : List Signal} {s : Signal} (h : ¬(u.act s).IsCommand) : ¬((ignoring l u).act s).IsCommand := by
  unfold ignoring
  simp only []
  split
  · rintro ⟨c, hh⟩; cases hh
  · exact h

theorem Core.ignoreQuitInt (h : Core e u (special true st.jobSet st.interSet) (fun _ => false) st)
    (hn : ∀ s, ¬(u.act s).IsCommand) :
    Core e (ignoring [.quit, .int] u) (special true st.jobSet st.interSet) (fun _ => false) (ignoreQuitInt st) ∧
      OnlyDisp st (ignoreQuitInt st) := by
  have hu : ignoring [.quit, .int] u = { u with act := put (put u.act .quit .ignore) .int .ignore } := by
    unfold ignoring; congr 1; funext s; cases s <;> simp [put]
  have hn' : ¬((put u.act .quit .ignore) .int).IsCommand := by
    rw [put_other _ _ (by decide)]; exact hn _
  rw [hu]
  by_cases hi : st.interSet = true
  · have heq : Sig.ignoreQuitInt st = { st with offIgn := put (put st.offIgn .quit true) .int true } := by
      unfold Sig.ignoreQuitInt; rw [if_pos hi]
    rw [heq]
    have h1 := h.ignoreSpecial (s := .quit) (by decide) (by simp [special, hi]) (hn _)
    have h2 := h1.ignoreSpecial (s := .int) (by decide) (by simp [special, hi]) hn'
    exact ⟨h2, ⟨_, _, _, _, rfl⟩⟩
  · have heq : Sig.ignoreQuitInt st = { xsigaction .int .ign (xsigaction .quit .ign st) with
          offIgn := put (put (xsigaction .int .ign (xsigaction .quit .ign st)).offIgn .quit true) .int true } := by
      unfold Sig.ignoreQuitInt; rw [if_neg hi]
    rw [heq]
    have h1 := h.ignorePlain (s := .quit) (by decide) (by simp [special, hi]) (hn _)
    have h2 := h1.ignorePlain (s := .int) (by decide) (by simp [special, hi]) hn'
    refine ⟨?_, ?_⟩
    · have heq : ({ xsigaction .int .ign { xsigaction .quit .ign st with offIgn := put st.offIgn .quit true } with
          offIgn := put (put st.offIgn .quit true) .int true } : State) =
        { xsigaction .int .ign (xsigaction .quit .ign st) with
          offIgn := put (put (xsigaction .int .ign (xsigaction .quit .ign st)).offIgn .quit true) .int true } := by
        have ho : (xsigaction .int .ign (xsigaction .quit .ign st)).offIgn = st.offIgn := by
          unfold xsigaction
          simp only [(record_frame _ _).2.2.2.1]
        rw [ho]
        unfold xsigaction
        have := record_with .int { Sig.record .quit st with disp := put st.disp .quit .ign } (put st.offIgn .quit true)
          (Sig.record .quit st).officialMask (Sig.record .quit st).acceptMask (Sig.record .quit st).trapped
          (Sig.record .quit st).mask
        have h3 : ({ Sig.record .quit st with disp := put st.disp .quit .ign, offIgn := put st.offIgn .quit true } : State) =
          { ({ Sig.record .quit st with disp := put st.disp .quit .ign } : State) with
            offIgn := put st.offIgn .quit true, officialMask := (Sig.record .quit st).officialMask,
            acceptMask := (Sig.record .quit st).acceptMask, trapped := (Sig.record .quit st).trapped,
            mask := (Sig.record .quit st).mask } := rfl
        simp only []
        rw [h3, this]
        obtain ⟨_, _, _, _, hoo⟩ := record_only .int { Sig.record .quit st with disp := put st.disp .quit .ign }
        rw [hoo]
      rw [heq] at h2
      exact h2
    · exact ((xsigaction_only _ _ _).trans (xsigaction_only _ _ _)).trans ⟨_, _, _, _, rfl⟩

/-- `become_child` for a subshell. -/
theorem Inv.enter (h : Inv e u st) (q t : Bool) : ∃ st', becomeChild e.sigs q t false st = some st' ∧
    Inv e (u.enter (lostAt st) q t) st' ∧ st'.cmd = st.cmd ∧ st'.scan = none ∧ st'.running = false ∧ st'.handled = st.handled ∧
    st'.phantom = (Sig.phantomize e.sigs st).phantom ∧ st'.anyTrap = (Sig.phantomize e.sigs st).anyTrap ∧
    st'.any = (Sig.phantomize e.sigs st).any ∧ st'.received = (Sig.phantomize e.sigs st).received := by
  obtain ⟨h1, f1, t1⟩ := h.phantomize
  generalize hs1 : Sig.phantomize e.sigs st = s1 at *
  generalize hu1 : ({ u with act := fun s => if (u.act s).IsCommand ∨ lostAt st s = true then .default else u.act s
                             remembered := fun s => u.remembered s || decide (u.act s).IsCommand } : User) = u1 at *
  have hn1 : ∀ s, ¬(u1.act s).IsCommand := by
    intro s; subst hu1; simp only []; split
    · rintro ⟨c, hh⟩; cases hh
    · rename_i hh; exact fun g => hh (Or.inl g)
  have hj : u1.jobs = u.jobs := by subst hu1; rfl
  have hjc : s1.jobControl = u.jobs := by rw [h1.core.jobs, hj]
  -- `SIGQUIT` and `SIGINT`
  have hq : ∃ s2, (if q && !s1.jobControl then ignoreQuitInt s1 else s1) = s2 ∧
      Core e (ignoring (if q = true ∧ u.jobs = false then [.quit, .int] else []) u1) (special true s1.jobSet s1.interSet)
        (fun _ => false) s2 ∧ OnlyDisp s1 s2 := by
    refine ⟨_, rfl, ?_⟩
    rw [hjc]
    by_cases hc : q = true ∧ u.jobs = false
    · have : (q && !u.jobs) = true := by simp [hc]
      rw [if_pos hc, if_pos this]
      exact h1.core.ignoreQuitInt hn1
    · have : ¬(q && !u.jobs) = true := by simpa using hc
      rw [if_neg hc, if_neg this]
      have : ignoring [] u1 = u1 := by simp [ignoring]
      rw [this]
      exact ⟨h1.core, .refl _⟩
  obtain ⟨s2, e2, c2, o2⟩ := hq
  generalize hu2 : ignoring (if q = true ∧ u.jobs = false then [.quit, .int] else []) u1 = u2 at *
  have hn2 : ∀ s, ¬(u2.act s).IsCommand := by subst hu2; exact fun s => ignoring_not (hn1 s)
  have hjc2 : s2.jobControl = u.jobs := by obtain ⟨_, _, _, _, rfl⟩ := o2; exact hjc
  have hset : s1.jobSet = u.jobs := by rw [h1.job, hjc]
  -- `SIGTSTP`
  have ht : ∃ s3, (if t && s2.jobControl then ignoreTstp s2 else s2) = s3 ∧
      Core e (ignoring (if t = true ∧ u.jobs = true then [.tstp] else []) u2) (special true s1.jobSet s1.interSet)
        (fun _ => false) s3 ∧ OnlyDisp s1 s3 := by
    refine ⟨_, rfl, ?_⟩
    rw [hjc2]
    by_cases hc : t = true ∧ u.jobs = true
    · have : (t && u.jobs) = true := by simp [hc]
      rw [if_pos hc, if_pos this]
      have := c2.ignoreSpecial (s := .tstp) (by decide) (by simp [special, hset, hc.2]) (hn2 _)
      have hu : ignoring [.tstp] u2 = { u2 with act := put u2.act .tstp .ignore } := by
        unfold ignoring; congr 1; funext s; cases s <;> simp [put]
      rw [hu]
      exact ⟨this, o2.trans ⟨_, _, _, _, rfl⟩⟩
    · have : ¬(t && u.jobs) = true := by simpa using hc
      rw [if_neg hc, if_neg this]
      have : ignoring [] u2 = u2 := by simp [ignoring]
      rw [this]
      exact ⟨c2, o2⟩
  obtain ⟨s3, e3, c3, o3⟩ := ht
  generalize hu3 : ignoring (if t = true ∧ u.jobs = true then [.tstp] else []) u2 = u3 at *
  have hn3 : ∀ s, ¬(u3.act s).IsCommand := by subst hu3; exact fun s => ignoring_not (hn2 s)
  have f3 : s3.jobSet = s1.jobSet ∧ s3.interSet = s1.interSet ∧ s3.mainSet = true := by
    obtain ⟨_, _, _, _, rfl⟩ := o3; exact ⟨rfl, rfl, h1.main⟩
  -- `restore_signals(false)`
  obtain ⟨s4, r4, c4, o4⟩ := restoreJob_core c3 f3.1 false
  have i4 : s4.interSet = s1.interSet := by obtain ⟨_, _, _, _, rfl⟩ := o4; exact f3.2.1
  obtain ⟨s5, r5, c5, o5⟩ := restoreInter_core c4 i4 false
  have m5 : s5.mainSet = true := by obtain ⟨_, _, _, _, rfl⟩ := o5; obtain ⟨_, _, _, _, rfl⟩ := o4; exact f3.2.2
  have hu4 : u.enter (lostAt st) q t = { u3 with jobs := false } := by
    subst hu3; subst hu2; subst hu1
    unfold User.enter ignoring
    congr 1
    funext s
    simp only []
    have hmem : (s ∈ [Signal.quit, Signal.int]) ↔ (s = .int ∨ s = .quit) := by
      simp only [List.mem_cons, List.not_mem_nil, or_false]; exact Or.comm
    by_cases hc : q = true ∧ u.jobs = false
    · by_cases hs : s = .int ∨ s = .quit
      · simp only [hc, and_self, true_and, Bool.false_eq_true, and_false, false_and, if_true, if_false, hmem, hs,
          List.not_mem_nil]
      · simp only [hc, and_self, true_and, Bool.false_eq_true, and_false, false_and, if_true, if_false, hmem, hs,
          List.not_mem_nil]
    · have hc' : ¬(q = true ∧ u.jobs = false ∧ (s = .int ∨ s = .quit)) := fun hh => hc ⟨hh.1, hh.2.1⟩
      simp only [hc, hc', if_false]
      by_cases hc2 : t = true ∧ u.jobs = true
      · simp only [hc2, and_self, true_and, if_true, List.mem_singleton, List.not_mem_nil, if_false]
      · have hc2' : ¬(t = true ∧ u.jobs = true ∧ s = .tstp) := fun hh => hc2 ⟨hh.1, hh.2.1⟩
        simp only [hc2, hc2', if_false, List.not_mem_nil]
  refine ⟨{ s5 with mask := put s5.officialMask .chld true, jobControl := false, interactiveNow := false, scan := none,
                    running := false }, ?_, ?_, ?_⟩
  · unfold becomeChild
    simp only [Bool.false_eq_true, if_false]
    rw [hs1, e2, e3]
    unfold restoreSignals
    rw [r4]; simp only [Option.bind_some]; rw [r5]; simp only [Option.bind_some]
    unfold restoreMain
    rw [m5]; simp only [if_true, Bool.false_eq_true, if_false, Option.map_some]
  · rw [hu4]
    have f5 : s5.jobSet = false ∧ s5.interSet = false ∧ s5.trapped = s1.trapped ∧ s5.phantom = s1.phantom ∧ s5.cmd = s1.cmd := by
      obtain ⟨_, _, _, _, rfl⟩ := o5; obtain ⟨_, _, _, _, rfl⟩ := o4; obtain ⟨_, _, _, _, rfl⟩ := o3
      exact ⟨rfl, rfl, rfl, rfl, rfl⟩
    refine ⟨?_, ⟨?_, ?_⟩, ?_, ?_, ?_, ?_, ?_⟩
    · simp only [f5.1, f5.2.1]
      have c6 := c5.looseEq (loose' := fun _ => false) (by simp)
      exact ⟨c6.inter, rfl, c6.trapped, c6.trappedExit, c6.off, c6.offSp, c6.unknown, c6.origIgn, c6.origDfl, c6.disp, c6.fixed,
        c6.anyTrap, c6.kill, c6.accept, c6.mask, c6.valid, c6.exitMask⟩
    · intro hp s c
      simp only [f5.2.2.2.1, f5.2.2.2.2] at hp ⊢
      constructor
      · intro hh; exact absurd ⟨c, hh⟩ (hn3 s)
      · intro hh; exact absurd ⟨c, (h1.ghost.real hp s c).2 hh⟩ (hn1 s)
    · intro hp s
      simp only [f5.2.2.2.1] at hp
      refine ⟨hn3 s, ?_⟩
      intro hh
      have hh : hasCommand s1 s = true := by unfold hasCommand at hh ⊢; simp only [f5.2.2.2.2] at hh; exact hh
      have := (h1.ghost.ghost hp s).2 hh
      subst hu3; subst hu2
      exact this
    · exact m5
    · exact f5.1
    · exact f5.2.1
    · intro s hs
      simp only [f5.2.2.1, t1, f5.2.1] at hs
      rcases hs with hs | hs | hs
      · cases hs
      · subst hs; simp
      · cases hs.1
    · intro hh; cases hh
  · obtain ⟨_, _, _, _, rfl⟩ := o5; obtain ⟨_, _, _, _, rfl⟩ := o4; obtain ⟨_, _, _, _, rfl⟩ := o3
    exact ⟨f1.cmd, rfl, rfl, f1.handled, rfl, rfl, rfl, rfl⟩

/-- `reset_job_signals` after job control has been switched on or off. -/
theorem Inv.setJobControl (h : Inv e u st) (on : Bool) : ∃ st', resetJobSignals { st with jobControl := on } = some st' ∧
    Inv e { u with jobs := on } st' ∧ SameTraps st st' := by
  have h0 : ∀ b, Core e { u with jobs := on } (special true st.jobSet st.interSet) (fun _ => false)
      { st with jobControl := on, jobSet := b } := fun b =>
    ⟨h.core.inter, rfl, h.core.trapped, h.core.trappedExit, h.core.off, h.core.offSp, h.core.unknown, h.core.origIgn,
      h.core.origDfl, h.core.disp, h.core.fixed, h.core.anyTrap, h.core.kill, h.core.accept, h.core.mask, h.core.valid,
      h.core.exitMask⟩
  have h1 := h0 st.jobSet
  have hg : Ghost e { u with jobs := on } { st with jobControl := on } := ⟨h.ghost.real, h.ghost.ghost⟩
  unfold resetJobSignals
  cases on with
  | false =>
    simp only [Bool.false_and, Bool.false_eq_true, if_false, Bool.not_false, if_true]
    obtain ⟨s1, r1, c1, o1⟩ := restoreJob_core (st := { st with jobControl := false }) h1 rfl false
    refine ⟨s1, r1, ?_, ?_⟩
    · obtain ⟨_, _, _, _, rfl⟩ := o1
      exact ⟨c1, hg.congr rfl rfl, h.main, rfl, h.inter, h.block, h.only⟩
    · obtain ⟨_, _, _, _, rfl⟩ := o1
      exact ⟨rfl, rfl, rfl, rfl, rfl, rfl, rfl, rfl⟩
  | true =>
    by_cases hj : st.jobSet = true
    · rw [if_neg (by simp [hj]), if_neg (by simp)]
      refine ⟨_, rfl, ⟨h1, hg, h.main, hj, h.inter, h.block, h.only⟩, ⟨rfl, rfl, rfl, rfl, rfl, rfl, rfl, rfl⟩⟩
    · have hj' : st.jobSet = false := by simpa using hj
      simp only [hj', Bool.not_false, Bool.and_true, if_true]
      rw [hj'] at h1
      have h1' : Core e { u with jobs := true } (special true false st.interSet) (fun _ => false) { st with jobControl := true } :=
        h1.congr rfl rfl rfl rfl rfl rfl rfl rfl id rfl rfl
      have hnt := Inv.noTrapped' h1' hg
      have c1 := (h1'.setJob hnt).looseEq (loose' := fun _ => false) (by simp)
      have o1 := setJob_only { st with jobControl := true }
      refine ⟨setJob { st with jobControl := true }, rfl, ?_, ?_⟩
      · obtain ⟨_, _, _, _, o1⟩ := o1
        rw [o1] at c1 ⊢
        exact ⟨c1, hg.congr rfl rfl, h.main, rfl, h.inter, h.block, h.only⟩
      · have := o1.same
        exact ⟨this.cmd, this.received, this.any, this.anyTrap, this.handled, this.phantom, this.scan, this.running⟩

end Yash.Sig
