import Verif.Sig.Spec
/-!
# The invariant of the signal state
-/
set_option autoImplicit false

namespace Yash.Sig
open Spec

@[simp] theorem put_same {α : Type} (f : Signal → α) (s : Signal) (v : α) : put f s v s = v := by simp [put]

theorem put_other {α : Type} (f : Signal → α) {s t : Signal} (v : α) (h : t ≠ s) : put f s v t = f t := by simp [put, h]

/-- What the shell has been told about the signal at its start is known. -/
def Known (st : State) (s : Signal) : Prop := st.origDfl s = true ∨ st.origIgn s = true

/-- The disposition goes with the action, if the shell needs `sp` itself; a signal in `loose` may still be caught. -/
def DispOk (a : Action) (sp : Option Disp) (loose : Bool) (d : Disp) : Prop :=
  match a with
  | .command _ => d = .catch
  | .ignore => d = sp.getD .ign
  | .default => d = sp.getD .dfl ∨ (sp = none ∧ loose = true ∧ d = .catch)

/-- The invariant without what is about `is_phantom`.  `sp`: the dispositions that the shell needs itself. -/
structure Core (e : Entry) (u : User) (sp : Signal → Option Disp) (loose : Signal → Bool) (st : State) : Prop where
  inter : st.isInteractive = e.interactive
  jobs : st.jobControl = u.jobs
  trapped : ∀ s, s ≠ .exit → (st.trapped s = true ↔ (u.act s).IsCommand)
  trappedExit : st.trapped .exit = false
  off : ∀ s, s ≠ .exit → st.offIgn s = true → u.act s = .ignore
  offSp : ∀ s, sp s ≠ none → u.act s = .ignore → st.offIgn s = true
  unknown : ∀ s, s ≠ .exit → ¬Known st s →
    u.act s = (if e.ignored s then .ignore else .default) ∧ sp s = none ∧ loose s = false
  origIgn : ∀ s, st.origIgn s = true → e.ignored s = true
  origDfl : ∀ s, st.origDfl s = true → e.ignored s = false
  disp : ∀ s, s ≠ .exit → DispOk (u.act s) (sp s) (loose s) (st.disp s)
  fixed : e.interactive = false → ∀ s, e.ignored s = true → st.cmd s = none
  anyTrap : ∀ s, (u.act s).IsCommand → st.anyTrap = true
  kill : u.act .kill = .default ∧ u.act .stop = .default
  accept : ∀ s, st.trapped s = true → st.acceptMask s = false
  mask : ∀ s, st.officialMask s = u.blocked s
  valid : ∀ s, hasCommand st s = true → s = .exit ∨ s ∈ e.sigs
  exitMask : sp .exit = none

/-- The invariant about `is_phantom`. -/
structure Ghost (e : Entry) (u : User) (st : State) : Prop where
  real : st.phantom = false → ∀ s c, u.act s = .command c ↔ (st.cmd s = some c ∧ c ≠ [])
  ghost : st.phantom = true → ∀ s, ¬(u.act s).IsCommand ∧ (hasCommand st s = true → u.remembered s = true)

variable {e : Entry} {u : User} {sp : Signal → Option Disp} {loose : Signal → Bool} {st : State}

theorem record_known (s : Signal) (st : State) (t : Signal) : Known (record s st) t ↔ t = s ∨ Known st t := by
  unfold record Known
  split
  · rename_i h
    simp at h
    constructor
    · exact Or.inr
    · rintro (rfl | h') <;> assumption
  · split <;> simp only [put] <;> split <;> simp_all

theorem record_frame (s : Signal) (st : State) :
    (record s st).cmd = st.cmd ∧ (record s st).phantom = st.phantom ∧ (record s st).trapped = st.trapped ∧
    (record s st).offIgn = st.offIgn ∧ (record s st).disp = st.disp := by
  unfold record; split <;> try split
  all_goals simp


/-- What is known about the start of the shell. -/
structure _root_.Yash.Sig.Spec.Entry.Ok (e : Entry) : Prop where
  exit : e.ignored .exit = false
  kill : e.ignored .kill = false
  stop : e.ignored .stop = false

theorem Core.record (h : Core e u sp loose st) (s : Signal) (hs : s ≠ .exit) : Core e u sp loose (record s st) := by
  have hk := record_known s st
  have hf := record_frame s st
  have hu : ¬Known st s → (st.disp s = .ign ↔ e.ignored s = true) := by
    intro hn
    obtain ⟨h1, h2, h3⟩ := h.unknown s hs hn
    have := h.disp s hs
    rw [h1, h2, h3] at this
    by_cases hi : e.ignored s = true <;> simp [hi, DispOk] at this <;> simp [this, hi]
  have ho : ∀ t, (Sig.record s st).origIgn t = true → e.ignored t = true := by
    intro t ht
    unfold Sig.record at ht
    split at ht
    · exact h.origIgn t ht
    · rename_i hn
      split at ht
      · simp only [put] at ht
        split at ht
        · rename_i ht'; subst ht'
          exact (hu (by simpa [Known] using hn)).1 (by assumption)
        · exact h.origIgn t ht
      · exact h.origIgn t ht
  have hd : ∀ t, (Sig.record s st).origDfl t = true → e.ignored t = false := by
    intro t ht
    unfold Sig.record at ht
    split at ht
    · exact h.origDfl t ht
    · rename_i hn
      split at ht
      · exact h.origDfl t ht
      · simp only [put] at ht
        split at ht
        · rename_i h1 ht'; subst ht'
          have := hu (by simpa [Known] using hn)
          cases he : e.ignored t with
          | false => rfl
          | true => exact absurd (this.2 he) h1
        · exact h.origDfl t ht
  have hsame : ∃ a b, Sig.record s st = { st with origIgn := a, origDfl := b } := by
    unfold Sig.record
    split
    · exact ⟨_, _, rfl⟩
    · split <;> exact ⟨_, _, rfl⟩
  obtain ⟨a, b, he⟩ := hsame
  have hun : ∀ t, t ≠ .exit → ¬Known (Sig.record s st) t →
      u.act t = (if e.ignored t then .ignore else .default) ∧ sp t = none ∧ loose t = false := by
    intro t ht hn
    exact h.unknown t ht fun hh => hn ((hk t).2 (Or.inr hh))
  rw [he] at ho hd hun ⊢
  exact ⟨h.inter, h.jobs, h.trapped, h.trappedExit, h.off, h.offSp, hun, ho, hd, h.disp, h.fixed, h.anyTrap, h.kill, h.accept,
    h.mask, h.valid, h.exitMask⟩


theorem Core.notCommand (h : Core e u sp loose st) {s : Signal} (hs : s ≠ .exit) (ht : st.trapped s = false) :
    u.act s = .ignore ∨ u.act s = .default := by
  cases ha : u.act s with
  | default => exact Or.inr rfl
  | ignore => exact Or.inl rfl
  | command c =>
    have := (h.trapped s hs).2 ⟨c, ha⟩
    rw [ht] at this
    cases this

theorem Core.knownOfTrapped (h : Core e u sp loose st) {s : Signal} (hs : s ≠ .exit) (ht : st.trapped s = true) : Known st s := by
  apply Classical.byContradiction
  intro hn
  obtain ⟨c, hc⟩ := (h.trapped s hs).1 ht
  have := (h.unknown s hs hn).1
  rw [hc] at this
  split at this <;> cases this

/-- `set_special_handler` makes the signal one that the shell needs. -/
theorem Core.setSpecial (h : Core e u sp loose st) {s : Signal} (hs : s ≠ .exit) (hk : s ≠ .kill ∧ s ≠ .stop) (d : Disp)
    (hsp : sp s = none) (hp : st.phantom = true → st.trapped s = false) :
    Core e u (put sp s (some d)) (put loose s false) (setSpecial s d st) := by
  by_cases ht : st.trapped s = true
  · have hph : st.phantom = false := by
      cases hh : st.phantom with
      | false => rfl
      | true => rw [hp hh] at ht; cases ht
    have he : Sig.setSpecial s d st = st := by simp [Sig.setSpecial, ht, hph]
    rw [he]
    obtain ⟨c, hc⟩ := (h.trapped s hs).1 ht
    refine ⟨h.inter, h.jobs, h.trapped, h.trappedExit, h.off, ?_, ?_, h.origIgn, h.origDfl, ?_, h.fixed, h.anyTrap, h.kill,
      h.accept, h.mask, h.valid, ?_⟩
    · intro t h1 h2
      by_cases hts : t = s
      · subst hts; rw [hc] at h2; cases h2
      · rw [put_other _ _ hts] at h1; exact h.offSp t h1 h2
    · intro t h1 h2
      have hts : t ≠ s := by rintro rfl; exact h2 (h.knownOfTrapped hs ht)
      rw [put_other _ _ hts, put_other _ _ hts]
      exact h.unknown t h1 h2
    · intro t h1
      by_cases hts : t = s
      · subst hts
        have := h.disp t hs
        rw [hc] at this ⊢
        exact this
      · rw [put_other _ _ hts, put_other _ _ hts]; exact h.disp t h1
    · rw [put_other _ _ (Ne.symm hs)]; exact h.exitMask
  · have ht : st.trapped s = false := by simpa using ht
    have ha := h.notCommand hs ht
    have hd := h.disp s hs
    have hr := h.record s hs
    have hf := record_frame s st
    have key : ∀ b, (b = true → u.act s = .ignore) → (u.act s = .ignore → b = true) →
        Core e u (put sp s (some d)) (put loose s false)
          { Sig.record s st with disp := put st.disp s d, offIgn := put st.offIgn s b } := by
      intro b hb1 hb2
      refine ⟨hr.inter, hr.jobs, hr.trapped, hr.trappedExit, ?_, ?_, ?_, hr.origIgn, hr.origDfl, ?_, hr.fixed, hr.anyTrap, hr.kill,
        hr.accept, hr.mask, hr.valid, ?_⟩
      · intro t h1 h2
        by_cases hts : t = s
        · subst hts; simp at h2; exact hb1 h2
        · simp only [put_other _ _ hts] at h2; exact h.off t h1 h2
      · intro t h1 h2
        by_cases hts : t = s
        · subst hts; simpa using hb2 h2
        · simp only [put_other _ _ hts] at h1 ⊢; exact h.offSp t h1 h2
      · intro t h1 h2
        have hts : t ≠ s := by
          rintro rfl
          exact h2 ((record_known t st t).2 (Or.inl rfl))
        rw [put_other _ _ hts, put_other _ _ hts]
        exact hr.unknown t h1 h2
      · intro t h1
        by_cases hts : t = s
        · subst hts
          simp only [put_same]
          rcases ha with ha | ha <;> rw [ha] <;> simp [DispOk]
        · simp only [put_other _ _ hts]
          exact h.disp t h1
      · rw [put_other _ _ (Ne.symm hs)]; exact h.exitMask
    have hb : st.disp s = .ign ↔ u.act s = .ignore := by
      rw [hsp] at hd
      rcases ha with ha | ha <;> rw [ha] at hd ⊢ <;> simp [DispOk] at hd ⊢
      · exact hd
      · rcases hd with hd | ⟨_, hd⟩ <;> rw [hd] <;> simp
    unfold Sig.setSpecial xsigaction
    simp only [ht, Bool.and_false, Bool.false_eq_true, if_false]
    split
    · rename_i hi
      simpa only [hf.2.2.2.1] using key true (fun _ => hb.1 hi) (fun _ => rfl)
    · rename_i hi
      have hni : u.act s ≠ .ignore := fun hh => hi (hb.2 hh)
      have := key (st.offIgn s) (fun hh => h.off s hs hh) (fun hh => absurd hh hni)
      have he : put st.offIgn s (st.offIgn s) = (Sig.record s st).offIgn := by
        rw [hf.2.2.2.1]; funext t; unfold put; split <;> simp_all
      rw [he] at this
      exact this

/-- `reset_special_handler` never fails, and makes the signal one that the shell does not need. -/
theorem Core.resetSpecial (h : Core e u sp loose st) {s : Signal} (hs : s ≠ .exit) {d : Disp} (hsp : sp s = some d)
    (hd : d = .ign ∨ d = .catch) (leave : Bool) :
    ∃ st', resetSpecial s d leave st = some st' ∧
      Core e u (put sp s none) (put loose s (leave && decide (d = .catch))) st' ∧
      (∃ f, st' = { st with disp := f }) := by
  have hkn : Known st s := by
    apply Classical.byContradiction
    intro hn
    have := (h.unknown s hs hn).2.1
    rw [hsp] at this; cases this
  have key : ∀ v : Disp, (u.act s = .ignore → v = .ign) → ((u.act s).IsCommand → v = .catch) →
      (u.act s = .default → v = .dfl ∨ ((leave && decide (d = .catch)) = true ∧ v = .catch)) →
      Core e u (put sp s none) (put loose s (leave && decide (d = .catch))) { st with disp := put st.disp s v } := by
    intro v h1 h2 h3
    refine ⟨h.inter, h.jobs, h.trapped, h.trappedExit, h.off, ?_, ?_, h.origIgn, h.origDfl, ?_, h.fixed, h.anyTrap, h.kill,
      h.accept, h.mask, h.valid, ?_⟩
    · intro t g1 g2
      by_cases hts : t = s
      · subst hts; simp at g1
      · rw [put_other _ _ hts] at g1; exact h.offSp t g1 g2
    · intro t g1 g2
      have hts : t ≠ s := by rintro rfl; exact g2 hkn
      rw [put_other _ _ hts, put_other _ _ hts]
      exact h.unknown t g1 g2
    · intro t g1
      by_cases hts : t = s
      · subst hts
        simp only [put_same]
        cases ha : u.act t with
        | default =>
          rcases h3 ha with h3 | ⟨h3, h4⟩
          · simp [DispOk, h3]
          · exact Or.inr ⟨rfl, h3, h4⟩
        | ignore => simp [DispOk, h1 ha]
        | command c => simp [DispOk, h2 ⟨c, ha⟩]
      · simp only [put_other _ _ hts]; exact h.disp t g1
    · rw [put_other _ _ (Ne.symm hs)]; exact h.exitMask
  have hsame : ∀ f : Signal → Disp, put f s (f s) = f := by
    intro f; funext t; unfold put; split <;> simp_all
  have hdisp := h.disp s hs
  unfold Sig.resetSpecial
  by_cases ht : st.trapped s = true
  · obtain ⟨c, hc⟩ := (h.trapped s hs).1 ht
    have ho : st.offIgn s = false := by
      cases hh : st.offIgn s with
      | false => rfl
      | true => have := h.off s hs hh; rw [hc] at this; cases this
    rw [if_pos ht, if_neg (by simp [ho])]
    refine ⟨st, rfl, ?_, st.disp, rfl⟩
    have := key (st.disp s) (fun g => by rw [hc] at g; cases g)
      (fun _ => by rw [hc] at hdisp; exact hdisp) (fun g => by rw [hc] at g; cases g)
    rw [hsame] at this
    exact this
  · have ht : st.trapped s = false := by simpa using ht
    rw [if_neg (by simp [ht])]
    rcases h.notCommand hs ht with ha | ha
    · have ho := h.offSp s (by rw [hsp]; simp) ha
      simp only [ho, if_true]
      have hk := key .ign (fun _ => rfl) (fun ⟨c, g⟩ => by rw [ha] at g; cases g) (fun g => by rw [ha] at g; cases g)
      by_cases hh : (if (leave && d != .ign) = true then Disp.dfl else d) = .ign
      · rw [if_pos hh]
        refine ⟨st, rfl, ?_, st.disp, rfl⟩
        have hdi : st.disp s = .ign := by
          rw [ha, hsp] at hdisp
          simp [DispOk] at hdisp
          rw [hdisp]
          rcases hd with rfl | rfl
          · rfl
          · cases leave <;> simp at hh
        rw [← hdi, hsame] at hk
        exact hk
      · rw [if_neg hh]
        exact ⟨_, rfl, hk, _, rfl⟩
    · have ho : st.offIgn s = false := by
        cases hh : st.offIgn s with
        | false => rfl
        | true => have := h.off s hs hh; rw [ha] at this; cases this
      simp only [ho, Bool.false_eq_true, if_false]
      by_cases hh : (if (leave && d != .ign) = true then Disp.dfl else d) = .dfl
      · rw [if_pos hh]
        refine ⟨st, rfl, ?_, st.disp, rfl⟩
        have hdi : st.disp s = d := by
          rw [ha, hsp] at hdisp
          simpa [DispOk] using hdisp
        have := key d (fun g => by rw [ha] at g; cases g) (fun ⟨c, g⟩ => by rw [ha] at g; cases g) (fun _ => by
          rcases hd with rfl | rfl
          · simp at hh
          · cases leave <;> simp at hh
            exact Or.inr ⟨rfl, rfl⟩)
        rw [← hdi, hsame, hdi] at this
        exact this
      · rw [if_neg hh]
        exact ⟨_, rfl, key .dfl (fun g => by rw [ha] at g; cases g) (fun ⟨c, g⟩ => by rw [ha] at g; cases g)
          (fun _ => Or.inl rfl), _, rfl⟩

end Yash.Sig
