import Verif.Sig.Lemmas
/-!
# Every operation keeps the invariant
-/
set_option autoImplicit false

namespace Yash.Sig
open Spec

variable {e : Entry} {u : User} {sp : Signal → Option Disp} {loose : Signal → Bool} {st : State}

theorem Core.congr {st' : State} (h : Core e u sp loose st) (h1 : st'.isInteractive = st.isInteractive)
    (h2 : st'.jobControl = st.jobControl) (h3 : st'.trapped = st.trapped) (h4 : st'.offIgn = st.offIgn)
    (h5 : st'.origIgn = st.origIgn) (h6 : st'.origDfl = st.origDfl) (h7 : st'.disp = st.disp) (h8 : st'.cmd = st.cmd)
    (h9 : st.anyTrap = true → st'.anyTrap = true) (h10 : st'.acceptMask = st.acceptMask)
    (h11 : st'.officialMask = st.officialMask) : Core e u sp loose st' := by
  have hk : ∀ s, Known st' s ↔ Known st s := by intro s; simp [Known, h5, h6]
  have hc : ∀ s, hasCommand st' s = hasCommand st s := by intro s; simp [hasCommand, h8]
  refine ⟨by rw [h1]; exact h.inter, by rw [h2]; exact h.jobs, by rw [h3]; exact h.trapped, by rw [h3]; exact h.trappedExit,
    by rw [h4]; exact h.off, by rw [h4]; exact h.offSp, ?_, by rw [h5]; exact h.origIgn, by rw [h6]; exact h.origDfl,
    by rw [h7]; exact h.disp, by rw [h8]; exact h.fixed, fun s hs => h9 (h.anyTrap s hs), h.kill, by rw [h3, h10]; exact h.accept,
    by rw [h11]; exact h.mask, ?_, h.exitMask⟩
  · intro s hs hn; exact h.unknown s hs (by rwa [hk] at hn)
  · intro s hs; exact h.valid s (by rwa [hc] at hs)

theorem Ghost.congr {st' : State} (h : Ghost e u st) (h1 : st'.phantom = st.phantom) (h2 : st'.cmd = st.cmd) : Ghost e u st' := by
  have hc : ∀ s, hasCommand st' s = hasCommand st s := by intro s; simp [hasCommand, h2]
  exact ⟨by rw [h1, h2]; exact h.real, by rw [h1]; intro hp s; rw [hc]; exact h.ghost hp s⟩

/-- Nothing but these fields differs. -/
def OnlyDisp (st st' : State) : Prop :=
  ∃ f g a b, st' = { st with disp := f, offIgn := g, origIgn := a, origDfl := b }

theorem OnlyDisp.refl (st : State) : OnlyDisp st st := ⟨_, _, _, _, rfl⟩

theorem OnlyDisp.trans {a b c : State} (h : OnlyDisp a b) (h' : OnlyDisp b c) : OnlyDisp a c := by
  obtain ⟨_, _, _, _, rfl⟩ := h
  obtain ⟨_, _, _, _, rfl⟩ := h'
  exact ⟨_, _, _, _, rfl⟩

theorem record_only (s : Signal) (st : State) : OnlyDisp st (record s st) := by
  unfold record
  split
  · exact .refl _
  · split <;> exact ⟨_, _, _, _, rfl⟩

theorem xsigaction_only (s : Signal) (d : Disp) (st : State) : OnlyDisp st (xsigaction s d st) :=
  (record_only s st).trans ⟨_, _, _, _, rfl⟩

theorem setSpecial_only (s : Signal) (d : Disp) (st : State) : OnlyDisp st (setSpecial s d st) := by
  unfold setSpecial
  split
  · exact .refl _
  · simp only []
    split
    · exact (xsigaction_only s d st).trans ⟨_, _, _, _, rfl⟩
    · exact xsigaction_only s d st

/-- The dispositions that the shell needs, by its flags. -/
def special (main job inter : Bool) : Signal → Option Disp
  | .chld => if main then some .catch else none
  | .int => if inter then some .catch else none
  | .winch => if inter then some .catch else none
  | .term => if inter then some .ign else none
  | .quit => if inter then some .ign else none
  | .tstp => if job then some .ign else none
  | .ttin => if job then some .ign else none
  | .ttou => if job then some .ign else none
  | _ => none

/-- The part about job control of `set_signals`. -/
def setJob (st : State) : State :=
  setSpecial .tstp .ign (setSpecial .ttou .ign (setSpecial .ttin .ign { st with jobSet := true }))

/-- The part about interactive shells of `set_signals`. -/
def setInter (st : State) : State :=
  setSpecial .winch .catch (setSpecial .quit .ign (setSpecial .term .ign (setSpecial .int .catch { st with interSet := true })))

theorem setJob_only (st : State) : OnlyDisp { st with jobSet := true } (setJob st) :=
  ((setSpecial_only _ _ _).trans (setSpecial_only _ _ _)).trans (setSpecial_only _ _ _)

theorem setInter_only (st : State) : OnlyDisp { st with interSet := true } (setInter st) :=
  (((setSpecial_only _ _ _).trans (setSpecial_only _ _ _)).trans (setSpecial_only _ _ _)).trans (setSpecial_only _ _ _)

/-- No signal is trapped if commands are only remembered. -/
def NoTrapped (st : State) : Prop := st.phantom = true → ∀ s, st.trapped s = false

theorem OnlyDisp.noTrapped {st st' : State} (h : OnlyDisp st st') (hn : NoTrapped st) : NoTrapped st' := by
  obtain ⟨_, _, _, _, rfl⟩ := h; exact hn

theorem Core.setJob {m i : Bool} (h : Core e u (special m false i) loose st) (hn : NoTrapped st) :
    Core e u (special m true i) (fun s => if s = .tstp ∨ s = .ttin ∨ s = .ttou then false else loose s) (setJob st) := by
  have h0 : Core e u (special m false i) loose { st with jobSet := true } := h.congr rfl rfl rfl rfl rfl rfl rfl rfl id rfl rfl
  have n0 : NoTrapped { st with jobSet := true } := hn
  have h1 := h0.setSpecial (s := .ttin) (by decide) (by decide) .ign (by simp [special]) (fun hp => n0 hp _)
  have n1 := (setSpecial_only .ttin .ign { st with jobSet := true }).noTrapped n0
  have h2 := h1.setSpecial (s := .ttou) (by decide) (by decide) .ign (by simp [special, put]) (fun hp => n1 hp _)
  have n2 := (setSpecial_only .ttou .ign _).noTrapped n1
  have h3 := h2.setSpecial (s := .tstp) (by decide) (by decide) .ign (by simp [special, put]) (fun hp => n2 hp _)
  have e1 : put (put (put (special m false i) .ttin (some .ign)) .ttou (some .ign)) .tstp (some .ign) = special m true i := by
    funext s; cases s <;> simp [put, special]
  have e2 : put (put (put loose .ttin false) .ttou false) .tstp false =
      (fun s => if s = .tstp ∨ s = .ttin ∨ s = .ttou then false else loose s) := by
    funext s; simp only [put]; cases s <;> simp
  rw [e1, e2] at h3
  exact h3

theorem Core.setInter {m j : Bool} (h : Core e u (special m j false) loose st) (hn : NoTrapped st) :
    Core e u (special m j true) (fun s => if s = .int ∨ s = .winch ∨ s = .quit ∨ s = .term then false else loose s)
      (setInter st) := by
  have h0 : Core e u (special m j false) loose { st with interSet := true } := h.congr rfl rfl rfl rfl rfl rfl rfl rfl id rfl rfl
  have n0 : NoTrapped { st with interSet := true } := hn
  have h1 := h0.setSpecial (s := .int) (by decide) (by decide) .catch (by simp [special]) (fun hp => n0 hp _)
  have n1 := (setSpecial_only .int .catch { st with interSet := true }).noTrapped n0
  have h2 := h1.setSpecial (s := .term) (by decide) (by decide) .ign (by simp [special, put]) (fun hp => n1 hp _)
  have n2 := (setSpecial_only .term .ign _).noTrapped n1
  have h3 := h2.setSpecial (s := .quit) (by decide) (by decide) .ign (by simp [special, put]) (fun hp => n2 hp _)
  have n3 := (setSpecial_only .quit .ign _).noTrapped n2
  have h4 := h3.setSpecial (s := .winch) (by decide) (by decide) .catch (by simp [special, put]) (fun hp => n3 hp _)
  have e1 : put (put (put (put (special m j false) .int (some .catch)) .term (some .ign)) .quit (some .ign)) .winch
      (some .catch) = special m j true := by
    funext s; cases s <;> simp [put, special]
  have e2 : put (put (put (put loose .int false) .term false) .quit false) .winch false =
      (fun s => if s = .int ∨ s = .winch ∨ s = .quit ∨ s = .term then false else loose s) := by
    funext s; simp only [put]; cases s <;> simp
  rw [e1, e2] at h4
  exact h4

/-- The invariant of a shell process: with the flags, and the signals with commands blocked. -/
structure Inv (e : Entry) (u : User) (st : State) : Prop where
  core : Core e u (special true st.jobSet st.interSet) (fun _ => false) st
  ghost : Ghost e u st
  main : st.mainSet = true
  job : st.jobSet = st.jobControl
  inter : st.interSet = st.interactiveNow
  block : ∀ s, st.trapped s = true ∨ s = .chld ∨ (st.interSet = true ∧ (s = .int ∨ s = .winch)) → st.mask s = true
  only : st.interactiveNow = true → st.isInteractive = true

/-- What is left of it when a program is about to be started. -/
structure Leaving (e : Entry) (u : User) (st : State) : Prop where
  core : Core e u (special false false false)
    (fun s => decide (s = .chld ∨ (st.interactiveNow = true ∧ (s = .int ∨ s = .winch)))) st
  ghost : Ghost e u st
  main : st.mainSet = false
  job : st.jobSet = false
  inter : st.interSet = false
  mask : st.mask = st.officialMask
  only : st.interactiveNow = true → st.isInteractive = true

theorem Inv.noTrapped' (hc : Core e u sp loose st) (hg : Ghost e u st) : NoTrapped st := by
  intro hp s
  cases ht : st.trapped s with
  | false => rfl
  | true =>
    by_cases hs : s = .exit
    · subst hs; rw [hc.trappedExit] at ht; cases ht
    · exact absurd ((hc.trapped s hs).1 ht) (hg.ghost hp s).1


theorem OnlyDisp.ghost {st' : State} (h : OnlyDisp st st') (hg : Ghost e u st) : Ghost e u st' := by
  obtain ⟨_, _, _, _, rfl⟩ := h; exact hg.congr rfl rfl

theorem Core.looseEq {loose' : Signal → Bool} (h : Core e u sp loose st) (he : ∀ s, loose s = loose' s) :
    Core e u sp loose' st := by
  have : loose = loose' := funext he
  rwa [← this]

/-- `set_signals`, after `restore_signals(true)` or at the start. -/
theorem setSignals_inv (h : Core e u (special false false false) loose st) (hg : Ghost e u st)
    (hl : ∀ s, loose s = true → s = .chld ∨ (st.interactiveNow = true ∧ (s = .int ∨ s = .winch)))
    (hm : st.mainSet = false) (hj : st.jobSet = false) (hi : st.interSet = false)
    (hon : st.interactiveNow = true → st.isInteractive = true) : Inv e u (setSignals st) := by
  have hn := Inv.noTrapped' h hg
  -- the part about job control
  have job : ∃ s1, (if !st.jobSet && st.jobControl then setJob st else st) = s1 ∧
      Core e u (special false st.jobControl false) loose s1 ∧ OnlyDisp { st with jobSet := st.jobControl } s1 := by
    refine ⟨_, rfl, ?_⟩
    rw [hj]
    have hjc : ∃ b, st.jobControl = b := ⟨_, rfl⟩
    obtain ⟨jc, hc⟩ := hjc
    suffices hh : Core e u (special false jc false) loose (if (!false && jc) = true then Sig.setJob st else st) ∧
        OnlyDisp { st with jobSet := jc } (if (!false && jc) = true then Sig.setJob st else st) by
      rw [← hc] at hh; exact hh
    cases jc with
    | true =>
      simp only [Bool.not_false, Bool.and_true, if_true]
      refine ⟨(h.setJob hn).looseEq ?_, setJob_only st⟩
      intro s
      split
      · rename_i hs
        cases hls : loose s with
        | false => rfl
        | true =>
          have := hl s hls
          rcases hs with rfl | rfl | rfl <;> simp at this
      · rfl
    | false =>
      simp only [Bool.not_false, Bool.and_false, Bool.false_eq_true, if_false]
      refine ⟨h, ?_⟩
      have : ({ st with jobSet := false } : State) = st := by rw [← hj]
      rw [this]; exact .refl _
  obtain ⟨s1, e1, c1, o1⟩ := job
  have g1 : Ghost e u s1 := o1.ghost (hg.congr rfl rfl)
  have n1 := Inv.noTrapped' c1 g1
  have i1 : s1.interSet = false ∧ s1.interactiveNow = st.interactiveNow ∧ s1.mainSet = false ∧ s1.jobSet = st.jobControl ∧
      s1.jobControl = st.jobControl ∧ s1.trapped = st.trapped ∧ s1.isInteractive = st.isInteractive := by
    obtain ⟨_, _, _, _, rfl⟩ := o1; exact ⟨hi, rfl, hm, rfl, rfl, rfl, rfl⟩
  -- the part about interactive shells
  have inter : ∃ s2, (if !s1.interSet && s1.interactiveNow then setInter s1 else s1) = s2 ∧
      Core e u (special false st.jobControl st.interactiveNow) (fun s => decide (s = .chld) && loose s) s2 ∧
      OnlyDisp { s1 with interSet := st.interactiveNow } s2 := by
    refine ⟨_, rfl, ?_⟩
    have hcond : (!s1.interSet && s1.interactiveNow) = (!false && st.interactiveNow) := by rw [i1.1, i1.2.1]
    rw [hcond]
    have hic : ∃ b, st.interactiveNow = b := ⟨_, rfl⟩
    obtain ⟨ic, hc⟩ := hic
    suffices hh : Core e u (special false st.jobControl ic) (fun s => decide (s = .chld) && loose s)
        (if (!false && ic) = true then Sig.setInter s1 else s1) ∧
        OnlyDisp { s1 with interSet := ic } (if (!false && ic) = true then Sig.setInter s1 else s1) by
      rw [← hc] at hh; exact hh
    cases ic with
    | true =>
      simp only [Bool.not_false, Bool.and_true, if_true]
      refine ⟨(c1.setInter n1).looseEq ?_, setInter_only s1⟩
      intro s
      split
      · rename_i hs; rcases hs with rfl | rfl | rfl | rfl <;> simp
      · rename_i hs
        cases hls : loose s with
        | false => simp
        | true =>
          rcases hl s hls with rfl | ⟨_, rfl | rfl⟩
          · rfl
          · simp at hs
          · simp at hs
    | false =>
      simp only [Bool.not_false, Bool.and_false, Bool.false_eq_true, if_false]
      refine ⟨c1.looseEq ?_, ?_⟩
      · intro s
        cases hls : loose s with
        | false => simp
        | true =>
          rcases hl s hls with rfl | ⟨hh, _⟩
          · rfl
          · rw [hc] at hh; cases hh
      · have : ({ s1 with interSet := false } : State) = s1 := by rw [← i1.1]
        rw [this]; exact .refl _
  obtain ⟨s2, e2, c2, o2⟩ := inter
  have g2 : Ghost e u s2 := o2.ghost (g1.congr rfl rfl)
  have i2 : s2.interSet = st.interactiveNow ∧ s2.interactiveNow = st.interactiveNow ∧ s2.mainSet = false ∧
      s2.jobSet = st.jobControl ∧ s2.jobControl = st.jobControl ∧ s2.trapped = st.trapped ∧
      s2.isInteractive = st.isInteractive := by
    obtain ⟨_, _, _, _, rfl⟩ := o2
    exact ⟨rfl, i1.2.1, i1.2.2.1, i1.2.2.2.1, i1.2.2.2.2.1, i1.2.2.2.2.2.1, i1.2.2.2.2.2.2⟩
  have n2 : NoTrapped { s2 with mainSet := true } := fun hp s => Inv.noTrapped' c2 g2 hp s
  have c2' : Core e u (special false st.jobControl st.interactiveNow) (fun s => decide (s = .chld) && loose s)
      { s2 with mainSet := true } := c2.congr rfl rfl rfl rfl rfl rfl rfl rfl id rfl rfl
  have c3 := c2'.setSpecial (s := .chld) (by decide) (by decide) .catch (by simp [special]) (fun hp => n2 hp _)
  have o3 := setSpecial_only .chld .catch { s2 with mainSet := true }
  have e3 : put (special false st.jobControl st.interactiveNow) .chld (some .catch) =
      special true st.jobControl st.interactiveNow := by
    funext s; cases s <;> simp [put, special]
  rw [e3] at c3
  have c3 := c3.looseEq (loose' := fun _ => false) (by
    intro s; simp only [put]; split
    · rfl
    · rename_i hs; simp [hs])
  have hexp : setSignals st =
      { setSpecial .chld .catch { s2 with mainSet := true } with
        mask := fun s => (setSpecial .chld .catch { s2 with mainSet := true }).mask s ||
          put (if st.interactiveNow then put (put st.trapped .int true) .winch true else st.trapped) .chld true s } := by
    have hstep : setSignals st =
      (let s1 := if !st.jobSet && st.jobControl then setJob st else st
       let s2 := if !s1.interSet && s1.interactiveNow then setInter s1 else s1
       let s3 := if !s2.mainSet then setSpecial .chld .catch { s2 with mainSet := true } else s2
       let b := if !s1.interSet && s1.interactiveNow then put (put st.trapped .int true) .winch true else st.trapped
       { s3 with mask := fun s => s3.mask s || (if !s2.mainSet then put b .chld true else b) s }) := rfl
    rw [hstep]
    simp only [e1]
    simp only [e2]
    simp only [i2.2.2.1, Bool.not_false, if_true, i1.1, i1.2.1, Bool.true_and]
  rw [hexp]
  obtain ⟨_, _, _, _, o3⟩ := o3
  rw [o3] at c3 ⊢
  refine ⟨?_, g2.congr rfl rfl, rfl, ?_, ?_, ?_, ?_⟩
  · simp only [i2.1, i2.2.2.2.1]
    exact c3.congr rfl rfl rfl rfl rfl rfl rfl rfl id rfl rfl
  · exact i2.2.2.2.1.trans i2.2.2.2.2.1.symm
  · exact i2.1.trans i2.2.1.symm
  · intro s hs
    simp only [i2.1] at hs
    have ht : s2.trapped s = st.trapped s := by rw [i2.2.2.2.2.2.1]
    simp only [ht] at hs
    have : put (if st.interactiveNow then put (put st.trapped .int true) .winch true else st.trapped) .chld true s = true := by
      simp only [put]
      split
      · rfl
      · rename_i hc
        rcases hs with hs | hs | ⟨h1, h2 | h2⟩
        · split <;> simp [put, hs]
        · exact absurd hs hc
        · rw [h1, h2]; simp [put]
        · rw [h1, h2]; simp [put]
    simp only [this, Bool.or_true]
  · intro hh
    rw [i2.2.2.2.2.2.2]
    exact hon (by rw [← i2.2.1]; exact hh)

theorem restoreJob_core {m j i : Bool} (h : Core e u (special m j i) (fun _ => false) st) (hj : st.jobSet = j) (leave : Bool) :
    ∃ st', restoreJob leave st = some st' ∧ Core e u (special m false i) (fun _ => false) st' ∧
      OnlyDisp { st with jobSet := false } st' := by
  unfold restoreJob
  cases j with
  | false =>
    rw [hj]
    refine ⟨st, by simp, h, ?_⟩
    have : ({ st with jobSet := false } : State) = st := by rw [← hj]
    rw [this]; exact .refl _
  | true =>
    rw [hj]
    simp only [if_true]
    have h0 : Core e u (special m true i) (fun _ => false) { st with jobSet := false } :=
      h.congr rfl rfl rfl rfl rfl rfl rfl rfl id rfl rfl
    obtain ⟨s1, r1, c1, f1, rfl⟩ := h0.resetSpecial (s := .ttin) (d := .ign) (by decide) (by simp [special]) (Or.inl rfl) leave
    obtain ⟨s2, r2, c2, f2, rfl⟩ := c1.resetSpecial (s := .ttou) (d := .ign) (by decide) (by simp [special, put]) (Or.inl rfl) leave
    obtain ⟨s3, r3, c3, f3, rfl⟩ := c2.resetSpecial (s := .tstp) (d := .ign) (by decide) (by simp [special, put]) (Or.inl rfl) leave
    refine ⟨_, by rw [r1]; simp only [Option.bind_some]; rw [r2]; simp only [Option.bind_some]; exact r3, ?_, ⟨_, _, _, _, rfl⟩⟩
    have e1 : put (put (put (special m true i) .ttin none) .ttou none) .tstp none = special m false i := by
      funext s; cases s <;> simp [put, special]
    rw [e1] at c3
    refine c3.looseEq ?_
    intro s; simp [put]

theorem restoreInter_core {m j i : Bool} (h : Core e u (special m j i) (fun _ => false) st) (hi : st.interSet = i)
    (leave : Bool) :
    ∃ st', restoreInter leave st = some st' ∧
      Core e u (special m j false) (fun s => leave && i && decide (s = .int ∨ s = .winch)) st' ∧
      OnlyDisp { st with interSet := false } st' := by
  unfold restoreInter
  cases i with
  | false =>
    rw [hi]
    refine ⟨st, by simp, h.looseEq (by simp), ?_⟩
    have : ({ st with interSet := false } : State) = st := by rw [← hi]
    rw [this]; exact .refl _
  | true =>
    rw [hi]
    simp only [if_true]
    have h0 : Core e u (special m j true) (fun _ => false) { st with interSet := false } :=
      h.congr rfl rfl rfl rfl rfl rfl rfl rfl id rfl rfl
    obtain ⟨s1, r1, c1, f1, rfl⟩ := h0.resetSpecial (s := .int) (d := .catch) (by decide) (by simp [special]) (Or.inr rfl) leave
    obtain ⟨s2, r2, c2, f2, rfl⟩ := c1.resetSpecial (s := .term) (d := .ign) (by decide) (by simp [special, put]) (Or.inl rfl) leave
    obtain ⟨s3, r3, c3, f3, rfl⟩ := c2.resetSpecial (s := .quit) (d := .ign) (by decide) (by simp [special, put]) (Or.inl rfl) leave
    obtain ⟨s4, r4, c4, f4, rfl⟩ := c3.resetSpecial (s := .winch) (d := .catch) (by decide) (by simp [special, put]) (Or.inr rfl) leave
    refine ⟨_, by rw [r1]; simp only [Option.bind_some]; rw [r2]; simp only [Option.bind_some]; rw [r3];
                  simp only [Option.bind_some]; exact r4, ?_, ⟨_, _, _, _, rfl⟩⟩
    have e1 : put (put (put (put (special m j true) .int none) .term none) .quit none) .winch none = special m j false := by
      funext s; cases s <;> simp [put, special]
    rw [e1] at c4
    refine c4.looseEq ?_
    intro s; cases s <;> simp [put]

/-- `restore_signals(true)`. -/
theorem Inv.leave (h : Inv e u st) : ∃ st', atExec st = some st' ∧ Leaving e u st' ∧
    st'.received = st.received ∧ st'.any = st.any ∧ st'.scan = st.scan ∧ st'.running = st.running ∧ st'.handled = st.handled ∧
    st'.cmd = st.cmd ∧ st'.phantom = st.phantom ∧ st'.anyTrap = st.anyTrap := by
  obtain ⟨s1, r1, c1, o1⟩ := restoreJob_core h.core rfl true
  have i1 : s1.interSet = st.interSet := by obtain ⟨_, _, _, _, rfl⟩ := o1; rfl
  obtain ⟨s2, r2, c2, o2⟩ := restoreInter_core c1 i1 true
  have m2 : s2.mainSet = true := by obtain ⟨_, _, _, _, rfl⟩ := o2; obtain ⟨_, _, _, _, rfl⟩ := o1; exact h.main
  have c2' : Core e u (special true false false) (fun s => true && st.interSet && decide (s = .int ∨ s = .winch))
      { s2 with mainSet := false } := c2.congr rfl rfl rfl rfl rfl rfl rfl rfl id rfl rfl
  obtain ⟨s3, r3, c3, f3, o3⟩ := c2'.resetSpecial (s := .chld) (d := .catch) (by decide) (by simp [special]) (Or.inr rfl) true
  refine ⟨{ s3 with mask := s3.officialMask }, ?_, ?_, ?_⟩
  · unfold atExec restoreSignals
    rw [r1]; simp only [Option.bind_some]; rw [r2]; simp only [Option.bind_some]
    unfold restoreMain
    rw [m2]; simp only [if_true]; rw [r3]; rfl
  · have e1 : put (special true false false) .chld none = special false false false := by
      funext s; cases s <;> simp [put, special]
    rw [e1] at c3
    have hin : s3.interactiveNow = st.interSet := by
      subst o3; obtain ⟨_, _, _, _, rfl⟩ := o2; obtain ⟨_, _, _, _, rfl⟩ := o1; exact h.inter.symm
    have hg : Ghost e u s3 := by
      subst o3; exact (o2.ghost ((o1.ghost (h.ghost.congr rfl rfl)).congr rfl rfl)).congr rfl rfl
    refine ⟨?_, hg.congr rfl rfl, ?_, ?_, ?_, rfl, ?_⟩
    · refine (c3.looseEq ?_).congr rfl rfl rfl rfl rfl rfl rfl rfl id rfl rfl
      intro s
      simp only [hin]
      cases s <;> simp [put]
    · subst o3; rfl
    · subst o3; obtain ⟨_, _, _, _, rfl⟩ := o2; obtain ⟨_, _, _, _, rfl⟩ := o1; rfl
    · subst o3; obtain ⟨_, _, _, _, rfl⟩ := o2; rfl
    · subst o3; obtain ⟨_, _, _, _, rfl⟩ := o2; obtain ⟨_, _, _, _, rfl⟩ := o1; exact h.only
  · subst o3; obtain ⟨_, _, _, _, rfl⟩ := o2; obtain ⟨_, _, _, _, rfl⟩ := o1
    exact ⟨rfl, rfl, rfl, rfl, rfl, rfl, rfl, rfl⟩

end Yash.Sig
