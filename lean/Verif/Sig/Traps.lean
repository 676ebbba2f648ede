import Verif.Sig.Run
/-!
# The execution of traps
-/
set_option autoImplicit false

namespace Yash.Sig
open Spec

variable {e : Entry} {u : User} {st : State}

/-- What `trap` does not change, but for the commands and what has been received. -/
structure SameScan (a b : State) : Prop where
  any : b.any = a.any
  handled : b.handled = a.handled
  scan : b.scan = a.scan
  running : b.running = a.running
  now : b.interactiveNow = a.interactiveNow

theorem SameScan.refl (a : State) : SameScan a a := ⟨rfl, rfl, rfl, rfl, rfl⟩

theorem SameScan.trans {a b c : State} (h : SameScan a b) (h' : SameScan b c) : SameScan a c :=
  ⟨h'.1.trans h.1, h'.2.trans h.2, h'.3.trans h.3, h'.4.trans h.4, h'.5.trans h.5⟩

theorem OnlyDisp.scan {a b : State} (h : OnlyDisp a b) : SameScan a b := by
  obtain ⟨_, _, _, _, rfl⟩ := h; exact ⟨rfl, rfl, rfl, rfl, rfl⟩

theorem install_scan (s : Signal) (d : Disp) (st : State) : SameScan st (install s d st) := by
  unfold install
  split
  · exact .refl _
  · refine SameScan.trans ?_ (xsigaction_only _ _ _).scan
    split
    · exact ⟨rfl, rfl, rfl, rfl, rfl⟩
    · exact .refl _

theorem storeCommand_scan (s : Signal) (c : Option Str) (st : State) : SameScan st (storeCommand s c st) := by
  unfold storeCommand
  split
  · exact .refl _
  · exact ⟨rfl, rfl, rfl, rfl, rfl⟩

theorem originallyIgnored_only (s : Signal) (st : State) : OnlyDisp st (originallyIgnored s st).2 := by
  unfold originallyIgnored
  split
  · exact .refl _
  · split
    · exact .refl _
    · split
      · exact .refl _
      · exact record_only s st

theorem storeCommand_received (s : Signal) (c : Option Str) (st : State) (t : Signal) :
    (storeCommand s c st).received t = st.received t ∨ ((storeCommand s c st).received t = false ∧ t = s) := by
  unfold storeCommand
  split
  · exact Or.inl rfl
  · by_cases h : t = s
    · subst h; exact Or.inr ⟨by simp, rfl⟩
    · exact Or.inl (by simp [put_other _ _ h])

theorem setTrap_scan (s : Signal) (c : Option Str) (st : State) : SameScan st (setTrap s c st) ∧
    (∀ t, (setTrap s c st).received t = st.received t ∨ ((setTrap s c st).received t = false ∧ t = s)) := by
  unfold setTrap
  split
  · exact ⟨.refl _, fun t => Or.inl rfl⟩
  · simp only []
    have h0 : ∃ s0, (if (!st.isInteractive && (st.cmd s).isNone) = true then (originallyIgnored s st).2 else st) = s0 ∧
        OnlyDisp st s0 := by
      refine ⟨_, rfl, ?_⟩
      split
      · exact originallyIgnored_only s st
      · exact .refl _
    obtain ⟨s0, e0, o0⟩ := h0
    have r0 : s0.received = st.received := o0.same.received
    rw [e0]
    split
    · exact ⟨o0.scan, fun t => Or.inl (by rw [r0])⟩
    · have hr := storeCommand_received s c s0
      rw [r0] at hr
      split
      · exact ⟨o0.scan.trans (storeCommand_scan _ _ _), hr⟩
      · have hi := install_same s (handlerFor c) (updateSets s (handlerFor c) (storeCommand s c s0))
        refine ⟨(o0.scan.trans (storeCommand_scan s c s0)).trans (SameScan.trans (b := updateSets s (handlerFor c) (storeCommand s c s0)) ?_
          (install_scan _ _ _)), ?_⟩
        · exact ⟨rfl, rfl, rfl, rfl, rfl⟩
        · intro t
          rw [hi.received]
          exact hr t

theorem setTrap_clears (h : Inv e u st) (hp : st.phantom = false) {s : Signal} (c : Option Str) (hal : e.Allowed s) (hok : e.Ok) :
    (setTrap s c st).received s = false := by
  have hs : s = .exit ∨ s ∈ e.sigs := by
    rcases hal with hh | hh
    · exact Or.inl hh
    · exact Or.inr hh.1
  obtain ⟨s0, hs0, _, heq⟩ := setTrap_allowed h hs c hal hok
  have hp0 : s0.phantom = false := by
    rcases hs0 with rfl | rfl
    · exact hp
    · rw [(record_frame s st).2.1]; exact hp
  have : (storeCommand s c s0).received s = false := by unfold storeCommand; rw [hp0]; simp
  rw [heq]
  split
  · exact this
  · rw [(install_same _ _ _).received]; exact this

theorem banish_frame (sigs : List Signal) (st : State) : SameScan st (banish sigs st) ∧ (banish sigs st).received = st.received := by
  unfold banish
  split
  · exact ⟨.refl _, rfl⟩
  · rw [banish_fold]; exact ⟨⟨rfl, rfl, rfl, rfl, rfl⟩, rfl⟩

theorem phantomize1_received (st : State) (s t : Signal) :
    (phantomize1 st s).received t = true → st.received t = true ∧ t ≠ s := by
  unfold phantomize1
  by_cases hts : t = s
  · subst hts; simp
  · simp only [put_other _ _ hts]
    intro h
    refine ⟨?_, hts⟩
    split at h
    · rcases (setTrap_scan s none st).2 t with h1 | h1
      · rwa [h1] at h
      · rw [h1.1] at h; cases h
    · exact h

theorem phantomizeFold_received (l : List Signal) (st : State) (t : Signal) :
    (l.foldl phantomize1 st).received t = true → st.received t = true ∧ t ∉ l := by
  induction l generalizing st with
  | nil => intro h; exact ⟨h, by simp⟩
  | cons a l ih =>
    intro h
    obtain ⟨h1, h2⟩ := ih _ h
    obtain ⟨h3, h4⟩ := phantomize1_received st a t h1
    exact ⟨h3, by simp [h4, h2]⟩

/-- Signals that have been received and have a command will be found. -/
def Found (sigs : List Signal) (u : User) (st : State) : Prop :=
  ∀ s, s ∈ sigs → (u.act s).IsCommand → st.received s = true → st.any = true ∨ ∃ r, st.scan = some r ∧ s ∈ r

/-- What is left to be examined is not more than all. -/
def Short (sigs : List Signal) (st : State) : Prop := ∀ r, st.scan = some r → r.length ≤ sigs.length

theorem setSpecial_scan (s : Signal) (d : Disp) (st : State) : SameScan st (setSpecial s d st) := (setSpecial_only s d st).scan

/-- The two kinds of frames together. -/
def SameBoth (a b : State) : Prop := SameScan a b ∧ SameTraps a b

theorem SameBoth.trans {a b c : State} (h : SameBoth a b) (h' : SameBoth b c) : SameBoth a c := ⟨h.1.trans h'.1, h.2.trans h'.2⟩

theorem setJob_both (st : State) : SameBoth st (if !st.jobSet && st.jobControl then setJob st else st) := by
  split
  · have h1 := (setJob_only st).scan
    have h2 := (setJob_only st).same
    exact ⟨⟨h1.1, h1.2, h1.3, h1.4, h1.5⟩, ⟨h2.1, h2.2, h2.3, h2.4, h2.5, h2.6, h2.7, h2.8⟩⟩
  · exact ⟨.refl _, .refl _⟩

theorem setInter_both (st : State) : SameBoth st (if !st.interSet && st.interactiveNow then setInter st else st) := by
  split
  · have h1 := (setInter_only st).scan
    have h2 := (setInter_only st).same
    exact ⟨⟨h1.1, h1.2, h1.3, h1.4, h1.5⟩, ⟨h2.1, h2.2, h2.3, h2.4, h2.5, h2.6, h2.7, h2.8⟩⟩
  · exact ⟨.refl _, .refl _⟩

theorem setMain_both (st : State) : SameBoth st (if !st.mainSet then setSpecial .chld .catch { st with mainSet := true } else st) := by
  split
  · have h1 := (setSpecial_only .chld .catch { st with mainSet := true }).scan
    have h2 := (setSpecial_only .chld .catch { st with mainSet := true }).same
    exact ⟨⟨h1.1, h1.2, h1.3, h1.4, h1.5⟩, ⟨h2.1, h2.2, h2.3, h2.4, h2.5, h2.6, h2.7, h2.8⟩⟩
  · exact ⟨.refl _, .refl _⟩

theorem setSignals_frame (st : State) : SameBoth st (setSignals st) := by
  have h1 := setJob_both st
  have h2 := setInter_both (if !st.jobSet && st.jobControl then setJob st else st)
  have h3 := setMain_both ((fun s1 => if !s1.interSet && s1.interactiveNow then setInter s1 else s1)
        (if !st.jobSet && st.jobControl then setJob st else st))
  have h := (h1.trans h2).trans h3
  exact ⟨⟨h.1.1, h.1.2, h.1.3, h.1.4, h.1.5⟩, ⟨h.2.1, h.2.2, h.2.3, h.2.4, h.2.5, h.2.6, h.2.7, h.2.8⟩⟩

/-- What one operation does to the flags about the execution of traps. -/
structure StepFacts (e : Entry) (u : User) (st : State) (op : Op) (st' : State) (o : Option (Signal × Str)) : Prop where
  now : st'.interactiveNow = (match op with | .enter _ _ => false | _ => st.interactiveNow)
  received : ∀ t, st'.received t = true → st.received t = true ∨ (op = .arrive t ∧ st.disp t = .catch)
  out : ∀ s c, o = some (s, c) → st.received s = true ∧ st'.received s = false ∧ u.act s = .command c
  keep : ∀ s c, u.act s = .command c → st.received s = true → (∀ d, op ≠ .trap s d) → (∀ q t, op ≠ .enter q t) →
    st'.received s = true ∨ o = some (s, c)
  arrive : ∀ s, op = .arrive s → st.disp s = .catch → st'.received s = true ∧ st'.any = true
  handled : (st.handled = true → st.scan ≠ none) → (∀ q t, op ≠ .enter q t) → st'.handled = true → st'.scan ≠ none
  short : Short e.sigs st → Short e.sigs st'

theorem atExec_both (h : Inv e u st) : ∃ s1, atExec st = some s1 ∧ SameTraps st s1 ∧ s1.interactiveNow = st.interactiveNow := by
  obtain ⟨s1, r1, c1, o1⟩ := restoreJob_core h.core rfl true
  have i1 : s1.interSet = st.interSet := by obtain ⟨_, _, _, _, rfl⟩ := o1; rfl
  obtain ⟨s2, r2, c2, o2⟩ := restoreInter_core c1 i1 true
  have m2 : s2.mainSet = true := by obtain ⟨_, _, _, _, rfl⟩ := o2; obtain ⟨_, _, _, _, rfl⟩ := o1; exact h.main
  have c2' : Core e u (special true false false) (fun s => true && st.interSet && decide (s = .int ∨ s = .winch))
      { s2 with mainSet := false } := c2.congr rfl rfl rfl rfl rfl rfl rfl rfl id rfl rfl
  obtain ⟨s3, r3, c3, f3, o3⟩ := c2'.resetSpecial (s := .chld) (d := .catch) (by decide) (by simp [special]) (Or.inr rfl) true
  refine ⟨{ s3 with mask := s3.officialMask }, ?_, ?_, ?_⟩
  · unfold atExec restoreSignals
    rw [r1]; simp only [Option.bind_some]; rw [r2]; simp only [Option.bind_some]
    unfold restoreMain
    rw [m2]; simp only [if_true]; rw [r3]; rfl
  · subst o3; obtain ⟨_, _, _, _, rfl⟩ := o2; obtain ⟨_, _, _, _, rfl⟩ := o1
    exact ⟨rfl, rfl, rfl, rfl, rfl, rfl, rfl, rfl⟩
  · subst o3; obtain ⟨_, _, _, _, rfl⟩ := o2; obtain ⟨_, _, _, _, rfl⟩ := o1; rfl

/-- Nothing about the execution of traps changes. -/
theorem StepFacts.of_same {op : Op} {st' : State} (h1 : st'.interactiveNow = st.interactiveNow) (h2 : SameTraps st st')
    (ha : ∀ s, op ≠ .arrive s) (he : ∀ q t, op ≠ .enter q t) : StepFacts e u st op st' none := by
  refine ⟨?_, ?_, ?_, ?_, ?_, ?_, ?_⟩
  · rw [h1]; cases op <;> first | rfl | exact absurd rfl (he _ _)
  · intro t ht; rw [h2.received] at ht; exact Or.inl ht
  · intro s c hh; cases hh
  · intro s c _ hr _ _; left; rw [h2.received]; exact hr
  · intro s hh; exact absurd hh (ha s)
  · intro hh _ h3; rw [h2.scan]; rw [h2.handled] at h3; exact hh h3
  · intro hh r hr; rw [h2.scan] at hr; exact hh r hr

theorem step_facts (h : Inv e u st) (hok : e.Ok) (op : Op) {st' : State} {o : Option (Signal × Str)}
    (hs : step e.sigs st op = some (st', o)) : StepFacts e u st op st' o := by
  cases op with
  | arrive s =>
    simp only [step, Option.some.injEq, Prod.mk.injEq] at hs
    obtain ⟨rfl, rfl⟩ := hs
    by_cases hd : st.disp s = .catch
    · rw [if_pos hd]
      refine ⟨rfl, ?_, ?_, ?_, ?_, ?_, ?_⟩
      · intro t ht
        by_cases hts : t = s
        · subst hts; exact Or.inr ⟨rfl, hd⟩
        · simp only [sigHandler, put_other _ _ hts] at ht; exact Or.inl ht
      · intro s c hh; cases hh
      · intro t c _ hr _ _
        left
        simp only [sigHandler, put]; split
        · rfl
        · exact hr
      · intro t ht _
        cases ht
        exact ⟨by simp [sigHandler], rfl⟩
      · intro hh _; exact hh
      · exact id
    · rw [if_neg hd]
      refine ⟨rfl, fun t ht => Or.inl ht, ?_, fun _ _ _ hr _ _ => Or.inl hr, ?_, fun hh _ => hh, id⟩
      · intro s c hh; cases hh
      · intro t ht hc; cases ht; exact absurd hc hd
  | trap s c =>
    simp only [step, Option.some.injEq, Prod.mk.injEq] at hs
    obtain ⟨rfl, rfl⟩ := hs
    obtain ⟨b1, b2⟩ := banish_frame e.sigs st
    have key : SameScan st (if s = .exit ∨ s ∈ e.sigs then setTrap s c (banish e.sigs st) else banish e.sigs st) ∧
      (∀ t, (if s = .exit ∨ s ∈ e.sigs then setTrap s c (banish e.sigs st) else banish e.sigs st).received t = st.received t ∨
        ((if s = .exit ∨ s ∈ e.sigs then setTrap s c (banish e.sigs st) else banish e.sigs st).received t = false ∧ t = s)) := by
      split
      · obtain ⟨c1, c2⟩ := setTrap_scan s c (banish e.sigs st)
        rw [b2] at c2
        exact ⟨b1.trans c1, c2⟩
      · exact ⟨b1, fun t => Or.inl (by rw [b2])⟩
    generalize (if s = .exit ∨ s ∈ e.sigs then setTrap s c (banish e.sigs st) else banish e.sigs st) = s1 at *
    obtain ⟨k1, k2⟩ := key
    refine ⟨k1.now, ?_, ?_, ?_, ?_, ?_, ?_⟩
    · intro t ht
      rcases k2 t with hh | hh
      · rw [hh] at ht; exact Or.inl ht
      · rw [hh.1] at ht; cases ht
    · intro s c hh; cases hh
    · intro t d _ hr hne _
      left
      rcases k2 t with hh | hh
      · rw [hh]; exact hr
      · exact absurd (by rw [hh.2]) (hne c)
    · intro t hh; cases hh
    · intro hh _ h3; rw [k1.scan]; rw [k1.handled] at h3; exact hh h3
    · intro hh r hr; rw [k1.scan] at hr; exact hh r hr
  | jobControl on =>
    obtain ⟨s1, r1, i1, t1⟩ := h.setJobControl on
    simp only [step, r1, Option.map_some, Option.some.injEq, Prod.mk.injEq] at hs
    obtain ⟨rfl, rfl⟩ := hs
    have hnow : s1.interactiveNow = st.interactiveNow := by
      have r2 := r1
      unfold resetJobSignals at r2
      cases on with
      | true =>
        by_cases hj : st.jobSet = true
        · rw [if_neg (by simp [hj]), if_neg (by simp)] at r2
          cases r2; rfl
        · rw [if_pos (by simp [hj])] at r2
          cases r2
          exact (setJob_only { st with jobControl := true }).scan.now
      | false =>
        rw [if_neg (by simp), if_pos (by simp)] at r2
        have h1 : Core e { u with jobs := false } (special true st.jobSet st.interSet) (fun _ => false)
            { st with jobControl := false } :=
          ⟨h.core.inter, rfl, h.core.trapped, h.core.trappedExit, h.core.off, h.core.offSp, h.core.unknown, h.core.origIgn,
            h.core.origDfl, h.core.disp, h.core.fixed, h.core.anyTrap, h.core.kill, h.core.accept, h.core.mask, h.core.valid,
            h.core.exitMask⟩
        obtain ⟨s2, r3, c3, o3⟩ := restoreJob_core h1 rfl false
        rw [r3] at r2
        cases r2
        exact o3.scan.now
    exact .of_same hnow t1 (by simp) (by simp)
  | execFails =>
    obtain ⟨s1, r1, t1, n1⟩ := atExec_both h
    simp only [step, r1, Option.map_some, Option.some.injEq, Prod.mk.injEq] at hs
    obtain ⟨rfl, rfl⟩ := hs
    have := setSignals_frame s1
    exact .of_same (this.1.now.trans n1) (t1.trans this.2) (by simp) (by simp)
  | enter q t =>
    obtain ⟨s1, r1, i1, hc, hsc, hr, hh, hp, hat, ha, hrec⟩ := h.enter q t
    simp only [step, r1, Option.map_some, Option.some.injEq, Prod.mk.injEq] at hs
    obtain ⟨rfl, rfl⟩ := hs
    refine ⟨?_, ?_, ?_, ?_, ?_, ?_, ?_⟩
    · have := r1
      unfold becomeChild at this
      simp only [Option.map_eq_some_iff] at this
      obtain ⟨x, _, hx⟩ := this
      rw [← hx]
    · intro s hs
      rw [hrec] at hs
      left
      unfold phantomize at hs
      split at hs
      · exact hs
      · exact (phantomizeFold_received _ _ _ hs).1
    · intro s c hh; cases hh
    · intro s c _ _ _ hne; exact absurd rfl (hne q t)
    · intro s hh; cases hh
    · intro _ hne; exact absurd rfl (hne q t)
    · intro _ r hr; rw [hsc] at hr; cases hr
  | begin =>
    simp only [step, Option.some.injEq, Prod.mk.injEq] at hs
    obtain ⟨rfl, rfl⟩ := hs
    unfold beginTraps
    split
    · exact .of_same rfl (.refl _) (by simp) (by simp)
    · refine ⟨rfl, fun t ht => Or.inl ht, ?_, fun _ _ _ hr _ _ => Or.inl hr, ?_, ?_, ?_⟩
      · intro s c hh; cases hh
      · intro s hh; cases hh
      · intro _ _ _; simp
      · intro _ r hr; cases hr; exact Nat.le_refl _
  | next =>
    simp only [step, Option.some.injEq] at hs
    have hst' : (nextTrap e.sigs st).1 = st' := by rw [hs]
    have ho : (nextTrap e.sigs st).2 = o := by rw [hs]
    subst hst' ho
    unfold nextTrap
    by_cases hr : st.running = true
    · rw [if_pos hr]
      exact .of_same rfl (.refl _) (by simp) (by simp)
    · rw [if_neg hr]
      cases hsc : st.scan with
      | none => exact .of_same rfl (.refl _) (by simp) (by simp)
      | some l =>
        cases l with
        | nil =>
          simp only []
          split
          · refine ⟨rfl, fun t ht => Or.inl ht, ?_, fun _ _ _ hr _ _ => Or.inl hr, ?_, ?_, ?_⟩
            · intro s c hh; cases hh
            · intro s hh; cases hh
            · intro _ _ _; simp
            · intro _ r hr; cases hr; exact Nat.le_refl _
          · refine ⟨rfl, fun t ht => Or.inl ht, ?_, fun _ _ _ hr _ _ => Or.inl hr, ?_, ?_, ?_⟩
            · intro s c hh; cases hh
            · intro s hh; cases hh
            · intro _ _ hh; cases hh
            · intro _ r hr; cases hr
        | cons a l =>
          have hsh : Short e.sigs st → l.length ≤ e.sigs.length := by
            intro hh; have := hh _ hsc; simp at this; omega
          simp only []
          by_cases hra : st.received a = true
          · rw [if_pos hra]
            have hput : ∀ t, put st.received a false t = true → st.received t = true := by
              intro t ht
              by_cases hta : t = a
              · subst hta; simp at ht
              · rwa [put_other _ _ hta] at ht
            have other : ∀ (x : State) , (handlerFor (st.cmd a) ≠ .catch ∨ st.phantom = true) →
                StepFacts e u st .next { st with scan := some l, received := put st.received a false } none := by
              intro _ hno
              refine ⟨rfl, fun t ht => Or.inl (hput t ht), ?_, ?_, ?_, ?_, ?_⟩
              · intro s c hh; cases hh
              · intro s c hact hrs _ _
                left
                by_cases hsa : s = a
                · subst hsa
                  exfalso
                  cases hp : st.phantom with
                  | true => exact (h.ghost.ghost hp s).1 ⟨c, hact⟩
                  | false =>
                    obtain ⟨h1, h2⟩ := (h.ghost.real hp s c).1 hact
                    rcases hno with hno | hno
                    · rw [h1] at hno
                      cases c with
                      | nil => exact h2 rfl
                      | cons => exact hno rfl
                    · rw [hp] at hno; cases hno
                · simp only [put_other _ _ hsa]; exact hrs
              · intro s hh; cases hh
              · intro _ _ _; simp
              · intro hh r hr; cases hr; exact hsh hh
            cases hcm : st.cmd a with
            | none => exact other st (Or.inl (by rw [hcm]; simp [handlerFor]))
            | some x =>
              cases x with
              | nil => exact other st (Or.inl (by rw [hcm]; simp [handlerFor]))
              | cons c cs =>
                simp only []
                by_cases hp : st.phantom = true
                · rw [if_pos hp]; exact other st (Or.inr hp)
                · rw [if_neg hp]
                  have hact : u.act a = .command (c :: cs) := (h.ghost.real (by simpa using hp) a _).2 ⟨hcm, by simp⟩
                  refine ⟨rfl, fun t ht => Or.inl (hput t ht), ?_, ?_, ?_, ?_, ?_⟩
                  · intro s d hh
                    simp only [Option.some.injEq, Prod.mk.injEq] at hh
                    obtain ⟨rfl, rfl⟩ := hh
                    exact ⟨hra, by simp, hact⟩
                  · intro s d hh hrs _ _
                    by_cases hsa : s = a
                    · subst hsa
                      right
                      rw [hact] at hh
                      cases hh; rfl
                    · left; simp only [put_other _ _ hsa]; exact hrs
                  · intro s hh; cases hh
                  · intro _ _ _; simp
                  · intro hh r hr; cases hr; exact hsh hh
          · rw [if_neg hra]
            refine ⟨rfl, fun t ht => Or.inl ht, ?_, fun _ _ _ hr _ _ => Or.inl hr, ?_, ?_, ?_⟩
            · intro s c hh; cases hh
            · intro s hh; cases hh
            · intro _ _ _; simp
            · intro hh r hr; cases hr; exact hsh hh
  | finish =>
    simp only [step, Option.some.injEq, Prod.mk.injEq] at hs
    obtain ⟨rfl, rfl⟩ := hs
    refine ⟨rfl, fun t ht => Or.inl ht, ?_, fun _ _ _ hr _ _ => Or.inl hr, ?_, fun hh _ => hh, fun hh => hh⟩
    · intro s c hh; cases hh
    · intro s hh; cases hh

theorem enter_not_command (u : User) (lost : Signal → Bool) (q t : Bool) (s : Signal) :
    ¬((u.enter lost q t).act s).IsCommand := by
  unfold User.enter
  simp only []
  split
  · rintro ⟨c, hh⟩; cases hh
  · split
    · rintro ⟨c, hh⟩; cases hh
    · split
      · rintro ⟨c, hh⟩; cases hh
      · rename_i hh; exact fun g => hh (Or.inl g)

theorem Found.step {u' : User} (hf : Found e.sigs u st) (h : Inv e u st) (hok : e.Ok) (op : Op) {st' : State}
    {o : Option (Signal × Str)} (hs : step e.sigs st op = some (st', o)) (ht : Step e u op u') : Found e.sigs u' st' := by
  intro s hmem hcmd hrec
  cases ht with
  | arrive a =>
    simp only [Sig.step, Option.some.injEq, Prod.mk.injEq] at hs
    obtain ⟨rfl, rfl⟩ := hs
    by_cases hd : st.disp a = .catch
    · rw [if_pos hd]; exact Or.inl rfl
    · rw [if_neg hd] at hrec ⊢; exact hf s hmem hcmd hrec
  | trap a c =>
    simp only [Sig.step, Option.some.injEq, Prod.mk.injEq] at hs
    obtain ⟨rfl, rfl⟩ := hs
    obtain ⟨b1, b2⟩ := banish_frame e.sigs st
    obtain ⟨hb, hp⟩ := h.banish
    have before : (u.act s).IsCommand → st.received s = true →
        (if a = .exit ∨ a ∈ e.sigs then setTrap a c (banish e.sigs st) else banish e.sigs st).any = true ∨
        ∃ r, (if a = .exit ∨ a ∈ e.sigs then setTrap a c (banish e.sigs st) else banish e.sigs st).scan = some r ∧ s ∈ r := by
      intro h1 h2
      have := hf s hmem h1 h2
      split
      · rw [(setTrap_scan _ _ _).1.any, (setTrap_scan _ _ _).1.scan, b1.any, b1.scan]; exact this
      · rw [b1.any, b1.scan]; exact this
    by_cases hsa : s = a ∧ e.Allowed a
    · exfalso
      obtain ⟨rfl, hal⟩ := hsa
      have hv : s = .exit ∨ s ∈ e.sigs := Or.inr hmem
      rw [if_pos hv] at hrec
      rw [setTrap_clears hb hp c hal hok] at hrec
      cases hrec
    · have hact : (u.trap e a c).act s = u.act s := by
        unfold User.trap; simp only []; rw [if_neg hsa]
      rw [hact] at hcmd
      refine before hcmd ?_
      split at hrec
      · rcases (setTrap_scan a c (banish e.sigs st)).2 s with hh | hh
        · rw [hh, b2] at hrec; exact hrec
        · rw [hh.1] at hrec; cases hrec
      · rw [b2] at hrec; exact hrec
  | jobControl on =>
    obtain ⟨s1, r1, i1, t1⟩ := h.setJobControl on
    simp only [Sig.step, r1, Option.map_some, Option.some.injEq, Prod.mk.injEq] at hs
    obtain ⟨rfl, rfl⟩ := hs
    rw [t1.any, t1.scan]; rw [t1.received] at hrec
    exact hf s hmem hcmd hrec
  | execFails =>
    obtain ⟨s1, r1, t1, n1⟩ := atExec_both h
    simp only [Sig.step, r1, Option.map_some, Option.some.injEq, Prod.mk.injEq] at hs
    obtain ⟨rfl, rfl⟩ := hs
    have t2 := t1.trans (setSignals_frame s1).2
    rw [t2.any, t2.scan]; rw [t2.received] at hrec
    exact hf s hmem hcmd hrec
  | enter lost q t => exact absurd hcmd (enter_not_command _ _ _ _ _)
  | begin =>
    simp only [Sig.step, Option.some.injEq, Prod.mk.injEq] at hs
    obtain ⟨rfl, rfl⟩ := hs
    unfold beginTraps at hrec ⊢
    split
    · rename_i hc; rw [if_pos hc] at hrec; exact hf s hmem hcmd hrec
    · exact Or.inr ⟨_, rfl, hmem⟩
  | next =>
    simp only [Sig.step, Option.some.injEq] at hs
    have hst' : (nextTrap e.sigs st).1 = st' := by rw [hs]
    subst hst'
    revert hrec
    unfold nextTrap
    by_cases hr : st.running = true
    · rw [if_pos hr]; exact hf s hmem hcmd
    · rw [if_neg hr]
      cases hsc : st.scan with
      | none => exact hf s hmem hcmd
      | some l =>
        cases l with
        | nil =>
          simp only []
          split
          · intro _; exact Or.inr ⟨_, rfl, hmem⟩
          · rename_i hany
            intro hrec
            rcases hf s hmem hcmd hrec with hh | ⟨r, h1, h2⟩
            · exact absurd hh hany
            · rw [hsc] at h1; cases h1; cases h2
        | cons a l =>
          simp only []
          have key : ∀ f : Signal → Bool, (∀ t, f t = true → st.received t = true) → (f a = false) → f s = true →
              st.any = true ∨ ∃ r, some l = some r ∧ s ∈ r := by
            intro f hf1 hf2 hf3
            rcases hf s hmem hcmd (hf1 s hf3) with hh | ⟨r, h1, h2⟩
            · exact Or.inl hh
            · rw [hsc] at h1
              cases h1
              refine Or.inr ⟨l, rfl, ?_⟩
              rcases List.mem_cons.1 h2 with rfl | h2
              · rw [hf2] at hf3; cases hf3
              · exact h2
          have hput : ∀ t, put st.received a false t = true → st.received t = true := by
            intro t ht
            by_cases hta : t = a
            · subst hta; simp at ht
            · rwa [put_other _ _ hta] at ht
          by_cases hra : st.received a = true
          · rw [if_pos hra]
            split
            · split
              · exact key _ hput (by simp)
              · exact key _ hput (by simp)
            · exact key _ hput (by simp)
          · rw [if_neg hra]
            exact key _ (fun _ ht => ht) (by simpa using hra)
  | finish =>
    simp only [Sig.step, Option.some.injEq, Prod.mk.injEq] at hs
    obtain ⟨rfl, rfl⟩ := hs
    exact hf s hmem hcmd hrec

/-- All that is known about reachable states. -/
structure Full (e : Entry) (u : User) (st : State) : Prop where
  inv : Inv e u st
  found : Found e.sigs u st
  short : Short e.sigs st

theorem Full.step (h : Full e u st) (hok : e.Ok) (op : Op) : ∃ st' o u', Sig.step e.sigs st op = some (st', o) ∧ Step e u op u' ∧
    Full e u' st' ∧ StepFacts e u st op st' o ∧
    (((∃ q t, op = .enter q t) → ∀ s, u.remembered s = true → u.act s ≠ .ignore) → u' = u.step e op) := by
  obtain ⟨st', o, u', h1, h2, h3, h4⟩ := h.inv.step hok op
  have hf := step_facts h.inv hok op h1
  exact ⟨st', o, u', h1, h2, ⟨h3, h.found.step h.inv hok op h1 h2, hf.short h.short⟩, hf, h4⟩

theorem run_append (sigs : List Signal) (a b : List Op) (st : State) :
    run sigs (a ++ b) st = match run sigs a st with
      | none => none
      | some (s1, l1) => match run sigs b s1 with
        | none => none
        | some (s2, l2) => some (s2, l1 ++ l2) := by
  induction a generalizing st with
  | nil => simp only [List.nil_append, run]; cases run sigs b st <;> rfl
  | cons op a ih =>
    simp only [List.cons_append, run]
    cases hs : step sigs st op with
    | none => rfl
    | some x =>
      obtain ⟨s1, o⟩ := x
      simp only [ih]
      cases run sigs a s1 with
      | none => rfl
      | some y =>
        obtain ⟨s2, l2⟩ := y
        simp only []
        cases run sigs b s2 with
        | none => rfl
        | some z => simp

theorem Full.run (h : Full e u st) (hok : e.Ok) (ops : List Op) : ∃ st' log u', Sig.run e.sigs ops st = some (st', log) ∧
    Run e u ops u' ∧ Full e u' st' ∧ (Clean e u ops → u' = u.run e ops) := by
  induction ops generalizing u st with
  | nil => exact ⟨st, [], u, rfl, .nil u, h, fun _ => rfl⟩
  | cons op ops ih =>
    obtain ⟨s1, o, u1, r1, t1, i1, _, c1⟩ := h.step hok op
    obtain ⟨s2, log, u2, r2, t2, i2, c2⟩ := ih i1
    refine ⟨s2, o.toList ++ log, u2, ?_, .cons t1 t2, i2, ?_⟩
    · simp only [Sig.run, r1, r2]
    · rintro ⟨hc1, hc2⟩
      have := c1 hc1
      subst this
      exact c2 hc2

theorem start_full (disp : Signal → Disp) (hd : ∀ s, disp s ≠ .catch) (hk : disp .exit = .dfl ∧ disp .kill = .dfl ∧ disp .stop = .dfl)
    (mask : Signal → Bool) (interactive jc : Bool) (sigs : List Signal) (hi : e.ignored = fun s => decide (disp s = .ign))
    (hb : e.blocked = mask) (hin : e.interactive = interactive) :
    Full e (User.start e jc) (start disp mask interactive jc) ∧ e.Ok ∧
      (start disp mask interactive jc).received = (fun _ => false) ∧ (start disp mask interactive jc).handled = false ∧
      (start disp mask interactive jc).scan = none ∧ (start disp mask interactive jc).interactiveNow = interactive := by
  obtain ⟨h1, h2⟩ := start_inv disp hd hk mask interactive jc sigs hi hb hin
  have hf := setSignals_frame (init disp mask interactive jc)
  refine ⟨⟨h1, ?_, ?_⟩, h2, ?_, ?_, ?_, ?_⟩
  · intro s _ hc _
    obtain ⟨c, hc⟩ := hc
    simp only [User.start] at hc
    split at hc <;> cases hc
  · intro r hr
    rw [show (start disp mask interactive jc).scan = none from hf.1.scan] at hr
    cases hr
  · exact hf.2.received
  · exact hf.1.handled
  · exact hf.1.scan
  · exact hf.1.now

/-! ## Runs -/

/-- What the documented behaviour says about commands, blocked signals and job control holds in any case. -/
structure Agree (u v : User) : Prop where
  act : ∀ s c, u.act s = .command c ↔ v.act s = .command c
  blocked : u.blocked = v.blocked
  jobs : u.jobs = v.jobs

theorem Agree.isCommand {u v : User} (h : Agree u v) (s : Signal) : (u.act s).IsCommand ↔ (v.act s).IsCommand :=
  ⟨fun ⟨c, hc⟩ => ⟨c, (h.act s c).1 hc⟩, fun ⟨c, hc⟩ => ⟨c, (h.act s c).2 hc⟩⟩

theorem Agree.step {u v u' : User} (h : Agree u v) {op : Op} (ht : Step e u op u') : Agree u' (v.step e op) := by
  cases ht with
  | trap s c =>
    refine ⟨?_, ?_, h.jobs⟩
    · intro t d
      simp only [User.step, User.trap]
      split
      · rfl
      · exact h.act t d
    · simp only [User.step, User.trap, h.blocked]
  | jobControl on => exact ⟨h.act, h.blocked, rfl⟩
  | enter lost q t =>
    refine ⟨?_, h.blocked, rfl⟩
    intro s c
    constructor
    · intro hh; exact absurd ⟨c, hh⟩ (enter_not_command _ _ _ _ _)
    · intro hh; exact absurd ⟨c, hh⟩ (enter_not_command _ _ _ _ _)
  | arrive s => exact h
  | execFails => exact h
  | begin => exact h
  | next => exact h
  | finish => exact h

theorem Agree.run {u v u' : User} (h : Agree u v) {ops : List Op} (ht : Run e u ops u') : Agree u' (v.run e ops) := by
  induction ht generalizing v with
  | nil => exact h
  | cons t1 _ ih => exact ih (h.step t1)

theorem Agree.refl (u : User) : Agree u u := ⟨fun _ _ => Iff.rfl, rfl, rfl⟩

end Yash.Sig
