import Verif.Shopt.Steps
/-!
# C61: options
-/
set_option autoImplicit false

namespace Yash.Shopt

open Spec

/-! ## Setting one option -/

theorem set_val (s : State) (v : Var) (b : Bool) (w : Var) : (s.set v b).val w = if w = v then b else s.val w := rfl

theorem consistent_mk {s : State} (h1 : ¬(s.val .vi = true ∧ s.val .emacs = true)) (h2 : ¬(s.val .leconvmeta = true ∧ s.val .lenoconvmeta = true))
    (h3 : s.lineedit = if s.val .vi then .vi else if s.val .emacs then .emacs else .noLineEdit)
    (h4 : s.convmeta = if s.val .leconvmeta then .yes else if s.val .lenoconvmeta then .no else .auto) : Consistent s := by
  constructor
  · exact h1
  · exact h2
  · rw [h3]; cases s.val .vi <;> cases s.val .emacs <;> simp_all
  · rw [h3]; cases hv : s.val .vi <;> cases he : s.val .emacs <;> simp_all
  · rw [h4]; cases s.val .leconvmeta <;> cases s.val .lenoconvmeta <;> simp_all
  · rw [h4]; cases hv : s.val .leconvmeta <;> cases he : s.val .lenoconvmeta <;> simp_all

theorem consistent_modes {s : State} (h : Consistent s) : (s.lineedit = if s.val .vi then .vi else if s.val .emacs then .emacs else .noLineEdit) ∧
    (s.convmeta = if s.val .leconvmeta then .yes else if s.val .lenoconvmeta then .no else .auto) := by
  obtain ⟨h1, h2, h3, h4, h5, h6⟩ := h
  constructor
  · cases h : s.lineedit <;> cases hv : s.val .vi <;> cases he : s.val .emacs <;> simp_all
  · cases h : s.convmeta <;> cases hv : s.val .leconvmeta <;> cases he : s.val .lenoconvmeta <;> simp_all

/-- Setting an option and switching off its rival. -/
theorem exclude_set (v : Var) (b : Bool) (s : State) : Changed s (exclude v b (s.set v b)) (turned s.val v b) := by
  refine ⟨?_, ?_, fun hc => ?_⟩
  · funext w
    unfold exclude
    split
    · subst v
      cases b <;> by_cases h3 : w = .vi <;> by_cases h4 : w = .emacs <;> simp [turned, rival, updateLineedit, State.set, h3, h4, eq_comm (a := Var.emacs)]
    · split
      · subst v
        cases b <;> by_cases h3 : w = .vi <;> by_cases h4 : w = .emacs <;> simp [turned, rival, updateLineedit, State.set, h3, h4, eq_comm (a := Var.vi)]
      · split
        · subst v
          cases b <;> by_cases h3 : w = .leconvmeta <;> by_cases h4 : w = .lenoconvmeta <;> simp [turned, rival, updateConvmeta, State.set, h3, h4, eq_comm (a := Var.lenoconvmeta)]
        · split
          · subst v
            cases b <;> by_cases h3 : w = .leconvmeta <;> by_cases h4 : w = .lenoconvmeta <;> simp [turned, rival, updateConvmeta, State.set, h3, h4, eq_comm (a := Var.leconvmeta)]
          · have : rival v = none := by cases v <;> first | rfl | contradiction
            simp [turned, this, State.set]
  · unfold exclude
    cases b <;> (repeat' split) <;> rfl
  · obtain ⟨c1, c2⟩ := consistent_modes hc
    obtain ⟨h1, h2, -⟩ := hc
    unfold exclude
    split
    · subst v
      refine consistent_mk ?_ ?_ rfl ?_ <;> cases b <;> simp_all [updateLineedit, State.set]
    · split
      · subst v
        refine consistent_mk ?_ ?_ rfl ?_ <;> cases b <;> simp_all [updateLineedit, State.set]
      · split
        · subst v
          refine consistent_mk ?_ ?_ ?_ rfl <;> cases b <;> simp_all [updateConvmeta, State.set]
        · split
          · subst v
            refine consistent_mk ?_ ?_ ?_ rfl <;> cases b <;> simp_all [updateConvmeta, State.set]
          · refine consistent_mk ?_ ?_ ?_ ?_ <;> simp_all [State.set, Ne.symm]

theorem startMonitor_eq {W : World} {inv : Option Invocation} {v : Var} {b : Bool} (hm : inv = none → v = .monitor → b = true → W.tty = true) (s : State) :
    startMonitor W inv v (s.set v b) = s.set v b := by
  unfold startMonitor
  rw [if_neg]
  cases inv with
  | some i => simp
  | none =>
    by_cases hv : v = .monitor
    · subst hv
      cases b with
      | false => simp [set_val]
      | true => simp [hm rfl rfl rfl]
    · simp [hv]

/-- An option that can be set is set, and only its rival is affected. -/
theorem setShellOption_ok {W : World} {inv : Option Invocation} {o : Opt} {b : Bool} {s : State} (hr : inv = none → o.resettable = true)
    (hm : inv = none → o.var = .monitor → b = true → W.tty = true) :
    ∃ s', setShellOption W inv o b s = (.success, inv.map (Invocation.note o.var), s') ∧ Changed s s' (turned s.val o.var b) := by
  have h0 : (inv.isNone && !o.resettable) = false := by
    cases inv with
    | none => simp [hr rfl]
    | some i => rfl
  have h := exclude_set o.var b s
  refine ⟨_, ?_, h⟩
  unfold setShellOption
  rw [if_neg (by rw [h0]; simp)]
  dsimp only
  rw [startMonitor_eq hm, if_pos (by rw [h.val]; simp [turned])]

/-- In any case the options stay consistent, and nothing but options changes. -/
theorem setShellOption_keeps (W : World) (inv : Option Invocation) (o : Opt) (b : Bool) (s : State) :
    (setShellOption W inv o b s).2.2.params = s.params ∧ (Consistent s → Consistent (setShellOption W inv o b s).2.2) ∧
    (inv = none → ∀ p ∈ shellOptions, p.resettable = false → o ∈ shellOptions → (setShellOption W inv o b s).2.2.val p.var = s.val p.var) := by
  by_cases hr : inv = none → o.resettable = true
  · by_cases hm : inv = none → o.var = .monitor → b = true → W.tty = true
    · obtain ⟨s', h1, h2⟩ := setShellOption_ok (s := s) hr hm
      rw [h1]
      refine ⟨h2.params, h2.consistent, fun hi p hp hpr ho => ?_⟩
      show s'.val p.var = s.val p.var
      have hne : p.var ≠ o.var := fun h => by
        rw [vars_unique o ho p hp h, hr hi] at hpr
        cases hpr
      rw [h2.val, turned, if_neg hne, if_neg]
      rintro ⟨-, h⟩
      have : ∀ p ∈ shellOptions, ∀ o ∈ shellOptions, p.resettable = false → rival o.var ≠ some p.var := by decide +kernel
      exact this p hp o ho hpr h
    · have hi : inv = none := Classical.byContradiction fun h => hm fun h' => absurd h' h
      have hv : o.var = .monitor := Classical.byContradiction fun h => hm fun _ h' => absurd h' h
      have hb : b = true := Classical.byContradiction fun h => hm fun _ _ h' => absurd h' h
      have ht : W.tty = false := by
        cases h : W.tty with
        | false => rfl
        | true => exact absurd (fun _ _ _ => h) hm
      subst hi hb
      have h1 : (setShellOption W none o true s).2.2 = (s.set .monitor true).set .monitor false := by
        simp [setShellOption, hr rfl, hv, startMonitor, ht, exclude, set_val]
      rw [h1]
      refine ⟨rfl, fun hc => ?_, fun _ p hp hpr _ => ?_⟩
      · obtain ⟨c1, c2, c3, c4, c5, c6⟩ := hc
        exact ⟨c1, c2, c3, c4, c5, c6⟩
      · rw [set_val, set_val]
        have : ∀ p ∈ shellOptions, p.resettable = false → p.var ≠ .monitor := by decide +kernel
        rw [if_neg (this p hp hpr), if_neg (this p hp hpr)]
  · have h1 : inv = none := Classical.byContradiction fun h => hr fun h' => absurd h' h
    have h2 : o.resettable = false := by
      cases h : o.resettable with
      | false => rfl
      | true => exact absurd (fun _ => h) hr
    have : setShellOption W inv o b s = (.error, inv, s) := by simp [setShellOption, h1, h2]
    rw [this]
    exact ⟨rfl, id, fun _ _ _ _ _ => rfl⟩

/-! ## Whatever the arguments are -/

/-- `vi` and `emacs` are never both on, the editing mode is the one that is on, and likewise for the conversion of characters: for every command line with
which the shell is started and for every sequence of `set`. -/
theorem options_consistent {W : World} {s : State} (h : Reachable W s) : Consistent s := by
  induction h with
  | start s vi emacs yes no h1 h2 => exact consistent_mk (by simp [vi]) (by simp [yes]) (by simp [vi, emacs, h1]) (by simp [yes, no, h2])
  | invoke _ hp ih =>
    obtain ⟨s1, h1, _, h2⟩ := parseLoop_steps _ hp
    have h3 : Consistent s1 := h1.keeps (fun s inv o b _ _ hs => (setShellOption_keeps W inv o b s).2.1 hs) ih
    rcases h2 with h2 | ⟨_, h2, _⟩
    · subst h2
      exact h3
    · cases h2
  | mode v _ ih =>
    obtain ⟨c1, c2⟩ := consistent_modes ih
    cases v <;> exact consistent_mk (by simp [setLineedit, State.set]) (by simpa [setLineedit, State.set] using ih.meta8) (by simp [setLineedit, State.set])
      (by simpa [setLineedit, State.set] using c2)
  | set _ hs ih =>
    obtain ⟨s1, h1, h2⟩ := setBuiltin_steps hs
    have h3 : Consistent s1 := h1.keeps (fun s inv o b _ _ hs => (setShellOption_keeps W inv o b s).2.1 hs) ih
    rcases h2 with rfl | ⟨_, _, _, _, rfl⟩
    · exact h3
    · obtain ⟨c1, c2, c3, c4, c5, c6⟩ := h3
      exact ⟨c1, c2, c3, c4, c5, c6⟩

/-- Whatever its arguments are, `set` does not change the options that can only be given when the shell is started. -/
theorem set_keeps_fixed {W : World} {args : List Str} {s s' : State} {st : Status} {out : Str} (h : setBuiltin W args s = some (out, st, s')) {v : Var} (hv : v ∈ fixed) :
    s'.val v = s.val v := by
  obtain ⟨s1, h1, h2⟩ := setBuiltin_steps h
  have hp : ∃ p ∈ shellOptions, p.resettable = false ∧ p.var = v := by
    have : ∀ v ∈ fixed, ∃ p ∈ shellOptions, p.resettable = false ∧ p.var = v := by decide +kernel
    exact this v hv
  obtain ⟨p, hp, hpr, rfl⟩ := hp
  have h3 : s1.val p.var = s.val p.var := by
    refine h1.keeps (P := fun t => t.val p.var = s.val p.var) (fun t inv o b hi ho ht => ?_) rfl
    have hi : inv = none := by cases inv with
      | none => rfl
      | some _ => cases hi
    rw [(setShellOption_keeps W inv o b t).2.2 hi p hp hpr ho, ht]
  rcases h2 with rfl | ⟨_, _, _, _, rfl⟩
  · exact h3
  · exact h3

/-- If there is an error, the positional parameters stay as they are; otherwise they stay or are replaced by the last arguments, beginning with one of them. -/
theorem set_params {W : World} {args : List Str} {s s' : State} {st : Status} {out : Str} (h : setBuiltin W args s = some (out, st, s')) :
    s'.params = s.params ∨ (st = .success ∧ ∃ p, args = p ++ s'.params) := by
  obtain ⟨s1, h1, h2⟩ := setBuiltin_steps h
  have h3 : s1.params = s.params := h1.keeps (P := fun t => t.params = s.params) (fun t inv o b _ _ ht => by rw [(setShellOption_keeps W inv o b t).1, ht]) rfl
  rcases h2 with rfl | ⟨h4, p, q, h5, rfl⟩
  · exact .inl h3
  · exact .inr ⟨h4, p, h5⟩

/-- `set --` with any arguments makes them the positional parameters, whatever they look like, and changes nothing else. -/
theorem set_double_hyphen (W : World) (args : List Str) (s : State) : setBuiltin W ("--".toList :: args) s = some ([], .success, { s with params := args }) := by
  simp [setBuiltin, parseOptions, parseLoop]

/-- So do arguments the first of which does not look like an option. -/
theorem set_operands (W : World) (arg : Str) (args : List Str) (h1 : arg.head? ≠ some '-') (h2 : arg.head? ≠ some '+') (s : State) :
    setBuiltin W (arg :: args) s = some ([], .success, { s with params := arg :: args }) := by
  have h3 : ∀ cs, arg ≠ '-' :: cs := fun cs h => h1 (by simp [h])
  have h4 : ∀ cs, arg ≠ '+' :: cs := fun cs h => h2 (by simp [h])
  rw [setBuiltin, if_neg (by intro h; cases h; exact h4 _ rfl)]
  simp only [parseOptions, parseLoop]
  split
  · rename_i h
    cases h
  · rfl

end Yash.Shopt
