import Verif.Redir.Lemmas
/-!
# Properties of redirections (C45)
-/
set_option autoImplicit false

namespace Yash.Redir

open Syntax (Redir FileRedir)
open Spec (Sane Ran Usual view inherited spare Means MeansAll)

variable {σ D : Type}

/-- C45: redirections take effect from left to right; each changes exactly the descriptors it mentions.  Not proved for
`n>>|m` where `n` may be used by the shell: false, see `C45_pipe_clobbers_copy`. -/
theorem C45_effect_partial (E : Env σ D) (hset : E.limit ≤ E.setSize) (rs : List Redir) (x x' : σ) (save : List Saved) (s s' : St D)
    (hs : Sane E s) (hlow : ∀ r, r ∈ rs → ∀ fd w, r = .file .pipe fd w → fd < E.min)
    (h : openAll E rs x [] s = (x', save, s', true)) :
    Sane E s' ∧ ∃ acts, MeansAll E x rs acts x' ∧ view s' = acts.foldl (fun t a => a.apply t) (view s) :=
  openAll_effect hset rs x x' [] save s s' hs hlow h

/-- C45: when the command ends, the redirected descriptors are as before, the copies are closed and everything else is
as the command has left it. -/
theorem C45_undone_partial (E : Env σ D) (hset : E.limit ≤ E.setSize) (rs : List Redir) (x x' : σ) (save : List Saved) (s s' s2 : St D)
    (hs : Sane E s) (hu : Usual E rs) (hspare : 4 * rs.length ≤ spare E s)
    (h : openAll E rs x [] s = (x', save, s', true)) (hran : Ran E s' s2) :
    ∃ acts s3, MeansAll E x rs acts x' ∧ undo E save s2 = some s3 ∧ s3.shell = s.shell ∧ s3.max = s.max ∧
      (∀ n, (∃ a, a ∈ acts ∧ n ∈ a.targets) → s3.fds n = s.fds n) ∧
      (∀ n, (¬ ∃ a, a ∈ acts ∧ n ∈ a.targets) → s'.shell n = s.shell n → s3.fds n = s2.fds n) ∧
      (∀ n, (¬ ∃ a, a ∈ acts ∧ n ∈ a.targets) → s'.shell n ≠ s.shell n → s3.fds n = none) := by
  obtain ⟨h1, h2⟩ := openAll_kept hset s rs x x' [] save s s' true (.start hs) hu.valid hu.low hspare h
  obtain ⟨acts, h3, _, h4⟩ := h2 rfl
  obtain ⟨s3, h5, h6, h7, h8⟩ := h1.undoable s2 ⟨hran.shell, hran.max, hran.own⟩ hran.sane
  simp only [List.map_nil, List.not_mem_nil, false_or] at h4
  refine ⟨acts, s3, h3, h5, h6, h7, fun n hn => ?_, fun n hn hsh => ?_, fun n hn hsh => ?_⟩
  · rw [h8 n, if_pos ((h4 n).2 hn)]
  · rw [h8 n, if_neg fun hc => hn ((h4 n).1 hc), hsh]
    cases s.shell n <;> simp
  · rw [h8 n, if_neg fun hc => hn ((h4 n).1 hc)]
    cases h0 : s.shell n with
    | true => exact absurd ((h1.more n h0).1.trans h0.symm) hsh
    | false =>
      rw [h0] at hsh
      have : s'.shell n = true := by simpa using hsh
      simp [this]

/-- C45: undoing redirections right after they have been performed, or after one of them has failed, gives back the very
same state. -/
theorem C45_restored_partial (E : Env σ D) (hset : E.limit ≤ E.setSize) (rs : List Redir) (x x' : σ) (save : List Saved) (s s' : St D)
    (ok : Bool) (hs : Sane E s) (hu : Usual E rs) (hspare : 4 * rs.length ≤ spare E s)
    (h : openAll E rs x [] s = (x', save, s', ok)) : undo E save s' = some s :=
  (openAll_kept hset s rs x x' [] save s s' ok (.start hs) hu.valid hu.low hspare h).1.restore

/-- C45: with the `exec` built-in, redirections persist and the copies are closed. -/
theorem C45_persistent_partial (E : Env σ D) (hset : E.limit ≤ E.setSize) (rs : List Redir) (x x' : σ) (save : List Saved)
    (s s' s2 : St D) (ok : Bool) (hs : Sane E s) (hu : Usual E rs) (hspare : 4 * rs.length ≤ spare E s)
    (h : openAll E rs x [] s = (x', save, s', ok)) (hran : Ran E s' s2) :
    ∃ s3, clearSaved E save s2 = some s3 ∧ s3.shell = s.shell ∧ s3.max = s.max ∧ view s3 = view s2 ∧
      ∀ n, s'.shell n = true → s.shell n = false → s3.fds n = none := by
  obtain ⟨h1, _⟩ := openAll_kept hset s rs x x' [] save s s' ok (.start hs) hu.valid hu.low hspare h
  obtain ⟨s3, h2, h3, h4, h5⟩ := h1.clearable s2 ⟨hran.shell, hran.max, hran.own⟩
  refine ⟨s3, h2, h3, h4, ?_, fun n hn hn' => ?_⟩
  · funext n
    unfold Spec.view
    rw [h5 n, h3, hran.shell]
    cases hn : s'.shell n with
    | false =>
      have : s.shell n = false := by
        cases h0 : s.shell n with
        | false => rfl
        | true => rw [(h1.more n h0).1] at hn; cases hn
      simp [this]
    | true => cases s.shell n <;> simp
  · rw [h5 n, hn, hn']
    rfl

/-- C45: a program that the shell executes inherits exactly what the user sees, never a descriptor of the shell. -/
theorem C45_inherited (E : Env σ D) (s : St D) (hs : Sane E s) : inherited s = view s := by
  funext n
  unfold Spec.inherited Spec.view
  cases hf : s.fds n with
  | none => simp
  | some e =>
    cases hn : s.shell n with
    | true =>
      obtain ⟨_, e', he', hc⟩ := hs.own n hn
      rw [hf] at he'
      cases he'
      simp [hc]
    | false => simp [hs.user n hn e hf]

/-- C45: descriptors of the shell cannot be redirected; nothing happens. -/
theorem C45_private_target (E : Env σ D) (r : Redir) (rs : List Redir) (x : σ) (s : St D) (h : s.shell (target r) = true) :
    openAll E (r :: rs) x [] s = (x, [], s, false) := by
  simp [openAll, openOne, isShell, h]

/-- C45: nor can they be copied. -/
theorem C45_private_source (E : Env σ D) (hset : E.limit ≤ E.setSize) (type : FileRedir) (n m : Nat) (w : Syntax.Word)
    (name : List Char) (rs : List Redir) (x x' x'' : σ) (save : List Saved) (s s' : St D) (ok : Bool) (hs : Sane E s)
    (ht : type = .dupin ∨ type = .dupout) (hw : E.filename x w = (x', some name)) (hne : name ≠ ['-'])
    (hn : E.toInt name = some (m : Int)) (hm : s.shell m = true)
    (h : openAll E (.file type n w :: rs) x [] s = (x'', save, s', ok)) : ok = false ∧ view s' = view s := by
  rw [openAll] at h
  rcases ho : openOne E (.file type n w) x [] s with ⟨x1, save1, s1, ok1⟩
  have key : ok1 = false ∧ view s1 = view s := by
    unfold openOne at ho
    cases hsh : isShell E n s with
    | true =>
      simp only [target, hsh, if_true] at ho
      cases ho
      exact ⟨rfl, rfl⟩
    | false =>
      simp only [target, hsh, Bool.false_eq_true, if_false, hw] at ho
      rcases hsv : saveFd E n [] s with ⟨save2, s2⟩
      have h1 := saveFd_saves hset hs (isShell_false hsh) hsv
      rw [hsv] at ho
      have hc : ∀ isIn, checkDup E name isIn s2 = .error := by
        intro isIn
        unfold checkDup
        rw [if_neg hne]
        cases hp : parseFd E name with
        | none => rfl
        | some k =>
          have : E.toInt name = some (k : Int) := parseFd_toInt hp
          rw [hn] at this
          have : m = k := by
            simp only [Option.some.injEq] at this
            omega
          subst this
          simp [isShell, (h1.mono m hm).1]
      rcases ht with rfl | rfl <;> (simp only [hc] at ho; cases ho; exact ⟨rfl, h1.view⟩)
  rw [ho] at h
  obtain ⟨rfl, h2⟩ := key
  cases h
  exact ⟨rfl, h2⟩

/-- C45: copying a closed descriptor is an error. -/
theorem C45_closed_source (E : Env σ D) (hset : E.limit ≤ E.setSize) (type : FileRedir) (n m : Nat) (w : Syntax.Word)
    (name : List Char) (rs : List Redir) (x x' x'' : σ) (save : List Saved) (s s' : St D) (ok : Bool) (hs : Sane E s)
    (ht : type = .dupin ∨ type = .dupout) (hw : E.filename x w = (x', some name)) (hne : name ≠ ['-'])
    (hn : E.toInt name = some (m : Int)) (hm : s.fds m = none) (hnm : n ≠ m)
    (h : openAll E (.file type n w :: rs) x [] s = (x'', save, s', ok)) : ok = false := by
  cases ok with
  | false => rfl
  | true =>
    exfalso
    rw [openAll] at h
    rcases ho : openOne E (.file type n w) x [] s with ⟨x1, save1, s1, ok1⟩
    rw [ho] at h
    cases ok1 with
    | false => cases h
    | true =>
      clear h
      unfold openOne at ho
      cases hsh : isShell E n s with
      | true =>
        simp only [target, hsh, if_true] at ho
        cases ho
      | false =>
        simp only [target, hsh, Bool.false_eq_true, if_false, hw] at ho
        rcases hsv : saveFd E n [] s with ⟨save2, s2⟩
        have h1 := saveFd_saves hset hs (isShell_false hsh) hsv
        rw [hsv] at ho
        have hno : ∀ isIn, (match checkDup E name isIn s2 with
            | .error => (x', save2, s2, false)
            | .close => (x', save2, { s2 with fds := xclose n s2.fds }, true)
            | .copy m => match place E m n true s2 with | (s, ok) => (x', save2, s, ok)) ≠ (x1, save1, s1, true) := by
          intro isIn hc
          cases hd : checkDup E name isIn s2 with
          | error => rw [hd] at hc; cases hc
          | close => exact hne (checkDup_close hd)
          | copy k =>
            rw [hd] at hc
            obtain ⟨_, h2, h3⟩ := checkDup_copy hd
            rw [hn] at h2
            have : m = k := by
              simp only [Option.some.injEq] at h2
              omega
            subst this
            simp only at hc
            rcases hp : place E m n true s2 with ⟨s4, ok4⟩
            rw [hp] at hc
            cases hc
            rcases place_copy hp with ⟨_, h4, _⟩ | ⟨_, _, _, e, h4, _⟩ | ⟨h4, _⟩
            · exact hnm h4.symm
            · rw [h1.same m h3, hm] at h4
              cases h4
            · cases h4
        rcases ht with rfl | rfl
        · exact hno _ ho
        · exact hno _ ho

theorem closeShell_fds (shell : Nat → Bool) (k : Nat) : ∀ (t : Fds D) (n : Nat),
    closeShell shell k t n = if n < k ∧ shell n = true then none else t n := by
  induction k with
  | zero =>
    intro t n
    simp [closeShell]
  | succ k ih =>
    intro t n
    rw [closeShell, ih]
    by_cases h1 : n < k ∧ shell n = true
    · rw [if_pos h1, if_pos ⟨by omega, h1.2⟩]
    · rw [if_neg h1]
      by_cases hk : n = k
      · subst hk
        by_cases hs : shell n = true
        · simp [hs, xclose, set_eq]
        · simp [hs]
      · have h2 : ¬ (n < k + 1 ∧ shell n = true) := by
          intro h
          exact h1 ⟨by omega, h.2⟩
        rw [if_neg h2]
        split
        · exact set_ne _ _ _ _ hk
        · rfl

/-- C45: a subshell closes exactly the descriptors that belong to the shell. -/
theorem C45_subshell (E : Env σ D) (hset : E.limit ≤ E.setSize) (s : St D) (hs : Sane E s) :
    ∃ s', clearShell E false s = some s' ∧ Sane E s' ∧ (∀ n, s'.shell n = false) ∧ view s' = view s ∧
      ∀ n, s.shell n = true → s'.fds n = none := by
  have hmax : ¬ (E.setSize : Int) ≤ s.max := by
    rcases hs.top with ⟨h, _⟩ | ⟨k, h1, h2, _⟩
    · omega
    · obtain ⟨_, e, he, _⟩ := hs.own k h2
      have := hs.bounded k (by simp [he])
      omega
  have hle : ∀ n, s.shell n = true → n < (s.max + 1).toNat := by
    intro n hn
    rcases hs.top with ⟨_, h⟩ | ⟨k, h1, _, h3⟩
    · rw [h n] at hn
      cases hn
    · have := h3 n hn
      omega
  have hf : ∀ n, closeShell s.shell (s.max + 1).toNat s.fds n = if s.shell n then none else s.fds n := by
    intro n
    rw [closeShell_fds]
    cases hn : s.shell n with
    | false => simp
    | true => simp [hle n hn]
  simp only [clearShell, Bool.false_eq_true, if_false, hmax]
  refine ⟨_, rfl, ⟨?_, ?_, ?_, Or.inl ⟨rfl, fun _ => rfl⟩⟩, fun _ => rfl, ?_, fun n hn => ?_⟩
  · intro n hn
    simp only [hf] at hn
    exact hs.bounded n (by intro hc; simp [hc] at hn)
  · intro n hn
    cases hn
  · intro n _ e he
    simp only [hf] at he
    cases hn : s.shell n with
    | true => simp [hn] at he
    | false => exact hs.user n hn e (by simpa [hn] using he)
  · funext n
    unfold Spec.view
    simp only [hf, Bool.false_eq_true, if_false]
    cases s.shell n <;> simp
  · simp only [hf, hn, if_true]

/-- C45: what the shell opens for itself is moved out of the user's way: the user's descriptors are as before it was
opened. -/
theorem C45_moved (E : Env σ D) (hset : E.limit ≤ E.setSize) (s : St D) (hs : Sane E s) (d : D) (fd : Nat) (s1 : St D)
    (ho : obtain E (some d) s = some (fd, s1)) :
    ∃ c s', moveToShell E fd s1 = (c, s') ∧ Sane E s' ∧ view s' = view s ∧
      ∀ k, c = some k → s'.shell k = true ∧ s'.fds k = some { desc := d, cloexec := true } := by
  obtain ⟨d0, hd, hfd, hfd0, rfl⟩ := obtain_spec ho
  cases hd
  have hfs : s.shell fd = false := by
    cases hc : s.shell fd with
    | false => rfl
    | true =>
      obtain ⟨_, e, he, _⟩ := hs.own fd hc
      rw [hfd0] at he
      cases he
  have hback : ∀ t : Fds D, t.set fd none = xclose fd t := fun _ => rfl
  have h0 : xclose fd (s.fds.set fd (some { desc := d })) = s.fds := by
    funext k
    simp only [xclose, Fds.set]
    split
    · next hk => rw [hk, hfd0]
    · rfl
  unfold moveToShell
  rcases copyAsShell_cases E fd { s with fds := s.fds.set fd (some { desc := d }) } with ⟨_, h2⟩ | ⟨_, h2, _⟩ | ⟨e, c, he, hcl, hcm, hc, h2⟩
  · rw [h2]
    exact ⟨_, _, rfl, by simpa [h0] using hs, by simp [h0], fun k hk => by cases hk⟩
  · rw [h2]
    exact ⟨_, _, rfl, by simpa [h0] using hs, by simp [h0], fun k hk => by cases hk⟩
  · rw [h2]
    simp only [set_eq] at he
    cases he
    have hne : c ≠ fd := by
      rintro rfl
      simp only [set_eq] at hc
      cases hc
    simp only [set_ne _ _ _ _ hne] at hc
    have hset' : c < E.setSize := by omega
    have ht : xclose fd ((s.fds.set fd (some { desc := d })).set c (some { desc := d, cloexec := true })) =
        s.fds.set c (some { desc := d, cloexec := true }) := by
      funext k
      simp only [xclose, Fds.set]
      by_cases hk : k = fd
      · subst hk
        simp [Ne.symm hne, hfd0]
      · simp [hk]
    have hsane := copy_sane (c := c) (e := { desc := d }) hs hcl hcm
    simp only [addShell, hset', if_true, ht]
    refine ⟨_, _, rfl, hsane, ?_, ?_⟩
    · funext k
      unfold Spec.view
      simp only [Fds.set]
      by_cases hk : k = c
      · simp [hk, hc]
      · simp [hk]
    · rintro k ⟨⟩
      simp [set_eq]

/-! ## Examples -/

namespace Example

/-- A system with few descriptors. -/
def sys : Env Nat Nat where
  limit := 40
  setSize := 1024
  min := 10
  posix := false
  filename := fun x w =>
    match w with
    | [.str s] => (x, some s)
    | _ => (x, none)
  toInt := fun s =>
    match s with
    | [c] => if c.isDigit then some (c.toNat - 48 : Nat) else none
    | _ => none
  openFile := fun x _ name => (x + 1, if name = ['x'] then none else some (100 + x))
  readable := fun _ => true
  writable := fun _ => true
  newPipe := fun x => (x + 1, 200 + x, 300 + x)
  hereDoc := fun x _ => (x + 1, some (400 + x))
  hereStr := fun x _ => (x + 1, some (500 + x))
  process := fun x _ _ => (x + 1, some (600 + x))

/-- Standard input, output and error, and a script that the shell reads. -/
def start : St Nat where
  fds := fun n => if n < 3 then some { desc := n } else if n = 10 then some { desc := 77, cloexec := true } else none
  shell := fun n => decide (n = 10)
  max := 10

theorem start_sane : Sane sys start where
  bounded := by
    intro n hn
    simp only [start] at hn
    simp only [sys]
    split at hn
    · omega
    · split at hn
      · omega
      · simp at hn
  own := by
    intro n hn
    simp only [start, decide_eq_true_eq] at hn
    subst hn
    exact ⟨by decide, _, rfl, rfl⟩
  user := by
    intro n hn e he
    simp only [start, decide_eq_false_iff_not] at hn he
    split at he
    · cases he; rfl
    · simp at he
  top := Or.inr ⟨10, rfl, rfl, by simp [start]⟩

/-- `>f 2>&1 4>>|5 0<&-` -/
def redirs : List Redir :=
  [.file .output 1 [.str ['f']], .file .dupout 2 [.str ['1']], .file .pipe 4 [.str ['5']], .file .dupin 0 [.str ['-']]]

theorem redirs_usual : Usual sys redirs where
  valid := by
    intro r hr
    simp only [redirs, List.mem_cons, List.not_mem_nil, or_false] at hr
    rcases hr with rfl | rfl | rfl | rfl <;> decide
  low := by
    intro r hr fd w h
    subst h
    simp only [redirs, List.mem_cons, List.not_mem_nil, or_false] at hr
    rcases hr with hr | hr | hr | hr <;> cases hr
    decide

-- the hypotheses are met, and the redirections succeed
example : sys.limit ≤ sys.setSize ∧ Sane sys start ∧ Usual sys redirs ∧ 4 * redirs.length ≤ spare sys start ∧
    (openAll sys redirs 0 [] start).2.2.2 = true :=
  ⟨by decide, start_sane, redirs_usual, by decide +kernel, by decide +kernel⟩

-- what they do
example : (List.range 7).map (view (openAll sys redirs 0 [] start).2.2.1) =
    [none, some 100, some 100, none, some 301, some 201, none] := by decide +kernel

-- a failing redirection after one that succeeds
example : (openAll sys [.file .output 1 [.str ['f']], .file .input 0 [.str ['x']]] 0 [] start).2.2.2 = false := by decide +kernel

-- a copy of a closed descriptor, and of the script
example : (openAll sys [.file .dupout 1 [.str ['7']]] 0 [] start).2.2.2 = false := by decide +kernel

/-- Descriptor 8 belongs to the shell. -/
def sys8 : Env Nat Nat := { sys with min := 5 }
def start8 : St Nat where
  fds := fun n => if n = 1 then some { desc := 1 } else if n = 8 then some { desc := 77, cloexec := true } else none
  shell := fun n => decide (n = 8)
  max := 8

example : start8.shell 8 = true ∧ sys8.toInt ['8'] = some ((8 : Nat) : Int) ∧
    (openAll sys8 [.file .dupout 1 [.str ['8']]] 0 [] start8).2.2.2 = false ∧
    (openAll sys8 [.file .output 8 [.str ['f']]] 0 [] start8).2.2.2 = false := by decide +kernel

example : (obtain sys (some 55) start).isSome = true := by decide +kernel

end Example

/-! ## What is not true -/

/-- C45 (negative): if the shell cannot save a descriptor because all those it may use are taken, it prints an error but
performs the redirection, which is never undone. -/
theorem C45_unsaved_not_undone : ∃ (E : Env Nat Nat) (s : St Nat) (rs : List Redir), E.limit ≤ E.setSize ∧ Sane E s ∧ Usual E rs ∧
    ∃ x' save s' s3, openAll E rs 0 [] s = (x', save, s', true) ∧ undo E save s' = some s3 ∧ view s 1 = some 1 ∧ view s3 1 = some 100 := by
  refine ⟨{ Example.sys with limit := 10 },
    { fds := fun n => if n < 3 then some { desc := n } else none, shell := fun _ => false, max := -1 },
    [.file .output 1 [.str ['f']]], by decide, ⟨?_, ?_, ?_, Or.inl ⟨rfl, fun _ => rfl⟩⟩, ⟨?_, ?_⟩, _, _, _, _, rfl, rfl, rfl, rfl⟩
  · intro n hn
    by_cases h : n < 3
    · show n < 10
      omega
    · simp [h] at hn
  · intro n hn
    cases hn
  · intro n _ e he
    by_cases h : n < 3
    · simp only [h, if_true, Option.some.injEq] at he
      rw [← he]
    · simp [h] at he
  · intro r hr
    simp only [List.mem_cons, List.not_mem_nil, or_false] at hr
    subst hr
    decide
  · intro r hr fd w h
    subst h
    simp only [List.mem_cons, List.not_mem_nil, or_false] at hr
    cases hr

/-- C45 (negative): a redirection of a descriptor beyond the limit fails, but what has been opened remains open. -/
theorem C45_beyond_limit_leaks : ∃ (E : Env Nat Nat) (s : St Nat) (rs : List Redir), E.limit ≤ E.setSize ∧ Sane E s ∧
    4 * rs.length ≤ spare E s ∧
    ∃ x' save s' s3, openAll E rs 0 [] s = (x', save, s', false) ∧ undo E save s' = some s3 ∧ view s 3 = none ∧ view s3 3 = some 100 :=
  ⟨Example.sys, Example.start, [.file .output 50 [.str ['f']]], by decide, Example.start_sane, by decide +kernel,
    _, _, _, _, rfl, rfl, rfl, rfl⟩

/-- C45 (negative): in `n>>|m`, if `n` is closed, the copy of `m` may be saved as `n`, which the pipe then overwrites;
after the command, `m` is the output side of the pipe. -/
theorem C45_pipe_clobbers_copy : ∃ (E : Env Nat Nat) (s : St Nat) (rs : List Redir), E.limit ≤ E.setSize ∧ Sane E s ∧
    (∀ r, r ∈ rs → target r < E.limit) ∧ 4 * rs.length ≤ spare E s ∧
    ∃ x' save s' s3, openAll E rs 0 [] s = (x', save, s', true) ∧ undo E save s' = some s3 ∧ view s 0 = some 0 ∧ view s3 0 = some 300 ∧
      view s' 11 = none := by
  refine ⟨Example.sys, Example.start, [.file .pipe 11 [.str ['0']]], by decide, Example.start_sane, ?_, by decide +kernel,
    _, _, _, _, rfl, rfl, rfl, rfl, rfl⟩
  intro r hr
  simp only [List.mem_cons, List.not_mem_nil, or_false] at hr
  subst hr
  decide

/-- C45 (negative): `n>&n` succeeds even if `n` is closed. -/
theorem C45_self_copy_of_closed : ∃ (E : Env Nat Nat) (s : St Nat), Sane E s ∧ s.fds 7 = none ∧
    (openAll E [.file .dupout 7 [.str ['7']]] 0 [] s).2.2.2 = true :=
  ⟨Example.sys, Example.start, Example.start_sane, rfl, by decide +kernel⟩

end Yash.Redir
