import Verif.Source.Spec
import Verif.Path.WhichProps
/-! # Property C94: `.` and `exec` -/
set_option autoImplicit false

namespace Yash.Source

open Spec

variable {α : Type}

theorem any_has (reports : List Xgetopt.Report) (c : Char) :
    (reports.any fun o => o.1.short == c) = true ↔ Has (reports.map fun o => (o.1.short, o.2)) c := by
  simp only [List.any_eq_true, beq_iff_eq, Has, List.mem_map, Prod.mk.injEq]
  constructor
  · rintro ⟨o, h1, h2⟩
    exact ⟨o.2, o, h1, h2, rfl⟩
  · rintro ⟨a, o, h1, h2, -⟩
    exact ⟨o, h1, h2⟩

/-- `-a`, `-c` and the like in the options. -/
noncomputable def flag (letters : List (Char × Option Str)) (c : Char) : Bool := @decide (Has letters c) (Classical.propDecidable _)

theorem flag_iff {letters : List (Char × Option Str)} {c : Char} : flag letters c = true ↔ Has letters c := by simp [flag]

theorem any_flag (reports : List Xgetopt.Report) (c : Char) :
    (reports.any fun o => o.1.short == c) = flag (reports.map fun o => (o.1.short, o.2)) c := by
  rw [Bool.eq_iff_iff, any_has, flag_iff]

theorem which_iff (cond : Str → Bool) (name : Str) (dirs : Option (List Str)) (p : Str) :
    Path.which name dirs cond = some p ↔
      (∃ n, name = '/' :: n ∧ p = name) ∨ (name ≠ [] ∧ (∀ n, name ≠ '/' :: n) ∧ Path.Spec.FirstMatch cond (dirs.getD []) name p) := by
  have key : ∀ (h1 : name ≠ []) (h2 : ∀ n, name ≠ '/' :: n), Path.which name dirs cond = some p ↔ Path.Spec.FirstMatch cond (dirs.getD []) name p := by
    intro h1 h2
    have : Path.which name dirs cond = match dirs with
        | none => none
        | some dirs => Path.whichLoop cond name dirs := by
      unfold Path.which
      split
      · exact absurd rfl h1
      · next n => exact absurd rfl (h2 n)
      · rfl
    rw [this]
    cases dirs with
    | none => exact Path.whichLoop_first cond name [] p
    | some ds => exact Path.whichLoop_first cond name ds p
  match name with
  | [] => simp [Path.which]
  | '/' :: n =>
    simp only [Path.which, Option.some.injEq]
    constructor
    · intro h; exact Or.inl ⟨n, rfl, h.symm⟩
    · rintro (⟨_, -, h⟩ | ⟨-, h, -⟩)
      · exact h.symm
      · exact absurd rfl (h n)
  | c :: cs =>
    by_cases hc : c = '/'
    · subst hc
      simp only [Path.which, Option.some.injEq]
      constructor
      · intro h; exact Or.inl ⟨cs, rfl, h.symm⟩
      · rintro (⟨_, -, h⟩ | ⟨-, h, -⟩)
        · exact h.symm
        · exact absurd rfl (h cs)
    · have h2 : ∀ n, (c :: cs) ≠ '/' :: n := by intro n h; cases h; exact hc rfl
      rw [key (by simp) h2]
      constructor
      · intro h; exact Or.inr ⟨by simp, h2, h⟩
      · rintro (⟨n, h, -⟩ | ⟨-, -, h⟩)
        · exact absurd h (h2 n)
        · exact h

/-- The file that is opened. -/
theorem dotPath_iff {E : Env α} (hb : PlainBytes E) {letters : List (Char × Option Str)} {name b : Str} (h : E.bytes name = some b) (hn : name ≠ []) (p : Str) :
    dotPath E (flag letters 'L') name b = some p ↔ Sources E letters name b p := by
  obtain ⟨h1, h2⟩ := hb name b h
  have hbn : b ≠ [] := fun x => hn (h2.1 x)
  unfold dotPath
  by_cases hL : Has letters 'L'
  · rw [if_pos (flag_iff.2 hL), which_iff]
    constructor
    · rintro (⟨n, e, rfl⟩ | ⟨e1, e2, e3⟩)
      · exact .absolute hL e
      · exact .autoload hL e2 e1 e3
    · intro hs
      cases hs with
      | absolute _ e => exact Or.inl ⟨_, e, rfl⟩
      | autoload _ e1 e2 e3 => exact Or.inr ⟨e2, e1, e3⟩
      | direct hL' _ => exact absurd hL hL'
      | search hL' _ _ => exact absurd hL hL'
      | here hL' _ _ _ => exact absurd hL hL'
  · rw [if_neg (fun x => hL (flag_iff.1 x))]
    by_cases hs : '/' ∈ name
    · rw [if_neg (by simpa using hs)]
      constructor
      · rintro h; cases h; exact .direct hL hs
      · intro h
        cases h with
        | absolute hL' _ => exact absurd hL' hL
        | autoload hL' _ _ _ => exact absurd hL' hL
        | direct _ _ => rfl
        | search _ hs' _ => exact absurd hs hs'
        | here _ hs' _ _ => exact absurd hs hs'
    · rw [if_pos (by simpa using hs)]
      have hnb : ∀ n, b ≠ '/' :: n := by
        rintro n rfl
        exact hs (h1.1 (by simp))
      have hw : ∀ q, Path.which b E.path E.readable = some q ↔ Path.Spec.FirstMatch E.readable (E.path.getD []) b q := by
        intro q
        rw [which_iff]
        constructor
        · rintro (⟨n, e, -⟩ | ⟨-, -, e⟩)
          · exact absurd e (hnb n)
          · exact e
        · exact fun e => Or.inr ⟨hbn, hnb, e⟩
      cases hq : Path.which b E.path E.readable with
      | some q =>
        simp only
        constructor
        · rintro h; cases h; exact .search hL hs ((hw p).1 hq)
        · intro h
          cases h with
          | absolute hL' _ => exact absurd hL' hL
          | autoload hL' _ _ _ => exact absurd hL' hL
          | direct _ hs' => exact absurd hs' hs
          | search _ _ hp => rw [← hq]; exact (hw p).2 hp
          | here _ _ hp _ => exact absurd ((hw q).1 hq) (hp q)
      | none =>
        have hno : ∀ q, ¬Path.Spec.FirstMatch E.readable (E.path.getD []) b q := by
          intro q hq'
          rw [(hw q).2 hq'] at hq
          cases hq
        simp only
        constructor
        · intro h
          split at h
          · next hx => cases h; exact .here hL hs hno (by simpa using hx)
          · cases h
        · intro h
          cases h with
          | absolute hL' _ => exact absurd hL' hL
          | autoload hL' _ _ _ => exact absurd hL' hL
          | direct _ hs' => exact absurd hs' hs
          | search _ _ hp => exact absurd hp (hno p)
          | here _ _ _ hx => simp [hx]

/-- `dotBuiltin` after the options. -/
theorem dot_eq {E : Env α} {args : List Str} {letters : List (Char × Option Str)} {name : Str} {params : List Str} (hg : Given E dotOptions args letters (name :: params))
    (hh : ¬Has letters '-') (s : State α) :
    dotBuiltin E args s =
      if params ≠ [] ∧ E.posix = true then specialError E s
      else
        match E.bytes name with
        | none => .stay none s 2
        | some mbs =>
          match dotPath E (flag letters 'L') name mbs with
          | none => dotError E s
          | some path => if E.canOpen path then dotRun E path (!flag letters 'A') params s else dotError E s := by
  obtain ⟨reports, used, hp, rfl⟩ := hg
  unfold dotBuiltin
  simp only [hp, any_flag]
  rw [if_neg (fun x => hh (flag_iff.1 x))]
  simp only [Bool.and_eq_true, Bool.not_eq_true', List.isEmpty_eq_false_iff]
  rfl

/-- `.` executes the file that the name stands for. It is executed with its own loops and `return`, with the operands as positional parameters if
there are any and with those of the caller otherwise; afterwards the loops of the caller are as they were, a `return` has ended the file
only, and the caller has its positional parameters back. -/
theorem dot_executes {E : Env α} (hb : PlainBytes E) (hk : KeepsOthers E) {args : List Str} {letters : List (Char × Option Str)} {name b p : Str} {params : List Str}
    (hg : Given E dotOptions args letters (name :: params)) (hh : ¬Has letters '-') (hx : params = [] ∨ E.posix = false) (hn : name ≠ [])
    (hbn : E.bytes name = some b) (hs : Sources E letters name b p) (ho : E.canOpen p = true) (s : State α) :
    ∃ alias s0, (alias = true ↔ ¬Has letters 'A') ∧
      s0.execstate = ⟨0, 0, false, s.execstate.iterating⟩ ∧ s0.suppress = false ∧ s0.exc = s.exc ∧ s0.laststatus = s.laststatus ∧ s0.rest = s.rest ∧
      s0.frames = (if params = [] then s.frames else params :: s.frames) ∧
      match E.execInput p alias s0 with
      | none => dotBuiltin E args s = .exitIn p
      | some s1 => ∃ s2, dotBuiltin E args s = .stay (some p) s2 s1.laststatus ∧
        s2.execstate = s.execstate ∧ s2.suppress = s.suppress ∧ s2.exc = (if s1.exc = .ret then .none else s1.exc) ∧ s2.laststatus = s1.laststatus ∧ s2.rest = s1.rest ∧
        (if params = [] then s2.frames = s1.frames else s2.frames = s.frames) := by
  have hx' : ¬(params ≠ [] ∧ E.posix = true) := by
    rintro ⟨h1, h2⟩
    rcases hx with h | h
    · exact h1 h
    · rw [h2] at h; cases h
  rw [dot_eq hg hh, if_neg hx', hbn]
  simp only [(dotPath_iff hb hbn hn p).2 hs, ho, if_true]
  refine ⟨!flag letters 'A', ⟨resetExecstate s.execstate, s.exc, false, s.laststatus, if params = [] then s.frames else params :: s.frames, s.rest⟩, ?_, rfl, rfl, rfl, rfl, rfl, ?_, ?_⟩
  · rw [Bool.not_eq_true', ← Bool.not_eq_true, flag_iff]
  · first | rfl | (simp only []; split <;> rfl)
  · have hl : ∀ t : State α, (cancelReturn t).laststatus = t.laststatus := by intro t; unfold cancelReturn; split <;> rfl
    have hf : ∀ t : State α, (cancelReturn t).frames = t.frames := by intro t; unfold cancelReturn; split <;> rfl
    have hr : ∀ t : State α, (cancelReturn t).rest = t.rest := by intro t; unfold cancelReturn; split <;> rfl
    have hc : ∀ t : State α, (cancelReturn t).exc = if t.exc = .ret then .none else t.exc := by intro t; unfold cancelReturn; split <;> simp_all
    unfold dotRun
    by_cases hp : params = []
    · subst hp
      simp only [List.isEmpty_nil, Bool.not_true, Bool.false_eq_true, if_false, if_true]
      cases he : E.execInput p (!flag letters 'A') ⟨resetExecstate s.execstate, s.exc, false, s.laststatus, s.frames, s.rest⟩ with
      | none => rfl
      | some s1 =>
        refine ⟨⟨s.execstate, (cancelReturn s1).exc, s.suppress, (cancelReturn s1).laststatus, (cancelReturn s1).frames, (cancelReturn s1).rest⟩, ?_, rfl, rfl, hc s1, hl s1, hr s1, hf s1⟩
        simp only [hl]
    · have : params.isEmpty = false := by simpa using hp
      simp only [this, Bool.not_false, if_true, if_neg hp]
      cases he : E.execInput p (!flag letters 'A') ⟨resetExecstate s.execstate, s.exc, false, s.laststatus, params :: s.frames, s.rest⟩ with
      | none => rfl
      | some s1 =>
        have hfr := hk _ _ _ _ he
        refine ⟨⟨s.execstate, (cancelReturn s1).exc, s.suppress, (cancelReturn s1).laststatus, (cancelReturn s1).frames.tail, (cancelReturn s1).rest⟩, ?_, rfl, rfl, hc s1, hl s1, hr s1, ?_⟩
        · simp only [hl]
        · simp only [hf]
          simpa using hfr

/-- If there is no file or it cannot be opened, then nothing is executed, and the shell exits with status 1 unless it is interactive or `.` has been
called by `command`. -/
theorem dot_missing {E : Env α} (hb : PlainBytes E) {args : List Str} {letters : List (Char × Option Str)} {name b : Str} {params : List Str}
    (hg : Given E dotOptions args letters (name :: params)) (hh : ¬Has letters '-') (hx : params = [] ∨ E.posix = false) (hn : name ≠ [])
    (hbn : E.bytes name = some b) (ho : ∀ p, Sources E letters name b p → E.canOpen p = false) (s : State α) :
    dotBuiltin E args s = if E.special = true ∧ E.interactive = false then .exit 1 else .stay none s 1 := by
  have hd : dotError E s = if E.special = true ∧ E.interactive = false then .exit 1 else .stay none s 1 := by
    unfold dotError
    cases E.special <;> cases E.interactive <;> simp
  have hx' : ¬(params ≠ [] ∧ E.posix = true) := by
    rintro ⟨h1, h2⟩
    rcases hx with h | h
    · exact h1 h
    · rw [h2] at h; cases h
  rw [dot_eq hg hh, if_neg hx', hbn, ← hd]
  simp only
  cases hp : dotPath E (flag letters 'L') name b with
  | none => rfl
  | some p => simp [ho p ((dotPath_iff hb hbn hn p).1 hp)]

/-- Wrong options, no operand, or more than one operand in the POSIXly-correct mode: nothing is executed, the status is 2. -/
theorem dot_refused {E : Env α} {args : List Str} (s : State α)
    (h : (∃ reports used ops e, Xgetopt.Spec.parse (E.getopt dotOptions) none args = ⟨reports, used, ops, .error e⟩ ∧ ¬Has (reports.map fun o => (o.1.short, o.2)) '-') ∨
      (∃ letters, Given E dotOptions args letters [] ∧ ¬Has letters '-') ∨
      (∃ letters name x params, Given E dotOptions args letters (name :: x :: params) ∧ ¬Has letters '-' ∧ E.posix = true)) :
    dotBuiltin E args s = if E.posix = true ∧ E.special = true ∧ E.interactive = false then .exit 2 else .stay none s 2 := by
  have hd : specialError E s = if E.posix = true ∧ E.special = true ∧ E.interactive = false then .exit 2 else .stay none s 2 := by
    unfold specialError
    cases E.posix <;> cases E.special <;> cases E.interactive <;> simp
  rw [← hd]
  rcases h with ⟨reports, used, ops, e, hp, hh⟩ | ⟨letters, ⟨reports, used, hp, rfl⟩, hh⟩ | ⟨letters, name, x, params, hg, hh, hx⟩
  · unfold dotBuiltin
    simp only [hp]
    rw [if_neg (fun x => hh ((any_has _ _).1 x))]
  · unfold dotBuiltin
    simp only [hp]
    rw [if_neg (fun x => hh ((any_has _ _).1 x))]
  · rw [dot_eq hg hh, if_pos ⟨by simp, hx⟩]

/-! ## `exec` -/

theorem lastAs_spec (reports : List Xgetopt.Report) : ∀ as, (¬Has (reports.map fun o => (o.1.short, o.2)) 'a' ∧ lastAs reports as = as) ∨
    ∃ before after, (reports.map fun o => (o.1.short, o.2)) = before ++ ('a', lastAs reports as) :: after ∧ ¬Has after 'a' := by
  induction reports with
  | nil => intro as; exact Or.inl ⟨by rintro ⟨a, h⟩; simp at h, rfl⟩
  | cons r rs ih =>
    intro as
    obtain ⟨o, arg⟩ := r
    simp only [List.map_cons, lastAs]
    rcases ih (if o.short = 'a' then arg else as) with ⟨h1, h2⟩ | ⟨b, a, h1, h2⟩
    · by_cases ho : o.short = 'a'
      · rw [if_pos ho] at h2 ⊢
        exact Or.inr ⟨[], _, by rw [h2, ho]; rfl, h1⟩
      · rw [if_neg ho] at h2 ⊢
        refine Or.inl ⟨?_, h2⟩
        rintro ⟨x, hx⟩
        rcases List.mem_cons.1 hx with hx | hx
        · simp only [Prod.mk.injEq] at hx; exact ho hx.1.symm
        · exact h1 ⟨x, hx⟩
    · exact Or.inr ⟨_ :: b, a, by rw [h1]; rfl, h2⟩

theorem as_unique {letters : List (Char × Option Str)} {x y : Option Str} (h1 : AsName letters x) (h2 : AsName letters y) : x = y := by
  rcases h1 with ⟨n1, rfl⟩ | ⟨b1, a1, e1, n1⟩ <;> rcases h2 with ⟨n2, rfl⟩ | ⟨b2, a2, e2, n2⟩
  · rfl
  · exact absurd ⟨y, by rw [e2]; simp⟩ n1
  · exact absurd ⟨x, by rw [e1]; simp⟩ n2
  · rw [e1] at e2
    rcases List.append_eq_append_iff.1 e2 with ⟨m, h3, h4⟩ | ⟨m, h3, h4⟩
    · cases m with
      | nil => simp only [List.nil_append, List.cons.injEq, Prod.mk.injEq, true_and] at h4; exact h4.1
      | cons c m =>
        simp only [List.cons_append, List.cons.injEq] at h4
        exact absurd ⟨y, by rw [h4.2]; simp⟩ n1
    · cases m with
      | nil => simp only [List.nil_append, List.cons.injEq, Prod.mk.injEq, true_and] at h4; exact h4.1.symm
      | cons c m =>
        simp only [List.cons_append, List.cons.injEq] at h4
        exact absurd ⟨x, by rw [h4.2]; simp⟩ n2

theorem assignedEnv_eq (E : Env α) (names : List Str) : assignedEnv E names = names.filterMap fun n => (E.exported n).map fun v => n ++ ['='] ++ v := by
  induction names with
  | nil => rfl
  | cons n ns ih =>
    rw [assignedEnv, List.filterMap_cons]
    cases E.exported n with
    | none => simpa using ih
    | some v => simp [ih]

/-- `execBuiltin` after the options. -/
theorem exec_eq {E : Env α} {args : List Str} {letters : List (Char × Option Str)} {name : Str} {params : List Str} (hg : Given E execOptions args letters (name :: params))
    (hh : ¬Has letters '-') (hj : E.posix = true ∨ E.interactive = false ∨ Has letters 'f' ∨ E.stopped = 0) {as : Option Str} (ha : AsName letters as) :
    execBuiltin E args = execBuiltin2 E name params as (flag letters 'c') := by
  obtain ⟨reports, used, hp, rfl⟩ := hg
  have hl : lastAs reports none = as := by
    refine as_unique ?_ ha
    rcases lastAs_spec reports none with h | h
    · exact Or.inl h
    · exact Or.inr h
  unfold execBuiltin
  simp only [hp, any_flag, hl]
  rw [if_neg (fun x => hh (flag_iff.1 x)), if_neg]
  simp only [Bool.and_eq_true, Bool.not_eq_true', decide_eq_true_eq]
  rintro ⟨⟨⟨h1, h2⟩, h3⟩, h4⟩
  rcases hj with h | h | h | h
  · rw [h1] at h; cases h
  · rw [h2] at h; cases h
  · rw [flag_iff.2 h] at h3; cases h3
  · omega

/-- What `exec` executes: the file with the arguments, of which the first one is the name or the argument of `-a`; the environment is the shell's, or
with `-c` it consists of the variables that have been assigned for `exec` and are exported. If the file is not in a format that can be
executed, then a shell executes it, with the same arguments and environment. Otherwise the status is 127 or 126. -/
theorem exec_executes {E : Env α} {args : List Str} {letters : List (Char × Option Str)} {name b path : Str} {params : List Str}
    (hg : Given E execOptions args letters (name :: params)) (hh : ¬Has letters '-')
    (hj : E.posix = true ∨ E.interactive = false ∨ Has letters 'f' ∨ E.stopped = 0) {as : Option Str} (ha : AsName letters as) (hb : E.bytes name = some b)
    {argv0 : Str} (h0 : (as = none ∧ argv0 = b) ∨ ∃ a, as = some a ∧ E.bytes a = some argv0)
    (hpath : ('/' ∈ name ∧ path = b) ∨ ('/' ∉ name ∧ E.commandPath b = some path)) :
    ∃ argv env, argv = argv0 :: params.map (fun a => (E.bytes a).getD []) ∧
      (¬Has letters 'c' → env = E.environ) ∧
      (Has letters 'c' → env = E.assigned.filterMap fun n => (E.exported n).map fun v => n ++ ['='] ++ v) ∧
      (E.execve path argv env = none → execBuiltin E args = .replaced path argv env) ∧
      (E.execve path argv env = some .enoent → execBuiltin E args = execFailed E 127) ∧
      (E.execve path argv env = some .other → execBuiltin E args = execFailed E 126) ∧
      (E.execve path argv env = some .enoexec → ∃ sargv, sargv = "sh".toList :: "-".toList :: (if path = "--".toList then "./--".toList else path) :: argv.tail ∧
        (Succeeds E "/proc/self/exe".toList sargv env → execBuiltin E args = .replaced "/proc/self/exe".toList sargv env) ∧
        (¬Succeeds E "/proc/self/exe".toList sargv env →
          (∀ sh, E.commandPath "sh".toList = some sh → Succeeds E sh sargv env → execBuiltin E args = .replaced sh sargv env) ∧
          ((∀ sh, E.commandPath "sh".toList = some sh → ¬Succeeds E sh sargv env) → execBuiltin E args = execFailed E 126))) := by
  rw [exec_eq hg hh hj ha]
  have e0 : argv0Of E b as = some argv0 := by
    rcases h0 with ⟨rfl, rfl⟩ | ⟨a, rfl, h⟩
    · rfl
    · exact h
  have e1 : (if name.contains '/' then some b else E.commandPath b) = some path := by
    rcases hpath with ⟨h, rfl⟩ | ⟨h, h'⟩
    · rw [if_pos (by simpa using h)]
    · rw [if_neg (by simpa using h), h']
  refine ⟨_, if flag letters 'c' then assignedEnv E E.assigned else E.environ, rfl, ?_, ?_, ?_, ?_, ?_, ?_⟩
  · intro hc
    rw [if_neg (fun x => hc (flag_iff.1 x))]
  · intro hc
    rw [if_pos (flag_iff.2 hc), assignedEnv_eq]
  all_goals
    intro he
    unfold execBuiltin2
    simp only [hb, e0, e1, execExternal, he]
  unfold fallBackOnSh
  simp only [List.drop_one, Option.isNone_iff_eq_none, List.tail_cons, Succeeds]
  generalize (if path = "--".toList then "./--".toList else path) = script
  generalize (if flag letters 'c' = true then assignedEnv E E.assigned else E.environ) = env
  generalize params.map (fun a => (E.bytes a).getD []) = l
  refine ⟨_, rfl, ?_, ?_⟩
  · intro h1
    rw [if_pos h1]
  · intro h1
    rw [if_neg h1]
    constructor
    · intro sh h2 h3
      simp only [h2, if_pos h3]
    · intro h2
      cases h3 : E.commandPath "sh".toList with
      | none => rfl
      | some sh => simp only [if_neg (h2 sh h3)]

/-- If `exec` fails, then the shell exits unless it is interactive and not POSIXly correct. -/
theorem exec_failed (E : Env α) (err : Int) : execFailed E err = if E.interactive = true ∧ E.posix = false then .stay err else .exit err := by
  unfold execFailed
  cases E.posix <;> cases E.interactive <;> simp

/-- A command that is not found has status 127. -/
theorem exec_not_found {E : Env α} {args : List Str} {letters : List (Char × Option Str)} {name b : Str} {params : List Str}
    (hg : Given E execOptions args letters (name :: params)) (hh : ¬Has letters '-')
    (hj : E.posix = true ∨ E.interactive = false ∨ Has letters 'f' ∨ E.stopped = 0) (ha : ¬Has letters 'a') (hb : E.bytes name = some b)
    (hs : '/' ∉ name) (hn : E.commandPath b = none) : execBuiltin E args = if E.interactive = true ∧ E.posix = false then .stay 127 else .exit 127 := by
  rw [exec_eq hg hh hj (Or.inl ⟨ha, rfl⟩), ← exec_failed]
  unfold execBuiltin2
  have : name.contains '/' = false := by simpa using hs
  simp only [hb, argv0Of, this, hn, Bool.false_eq_true, if_false]

/-- Without operands nothing is executed, and the status is 0. In an interactive shell with stopped jobs, nothing is executed either, unless `-f` is
given or the shell is POSIXly correct. -/
theorem exec_nothing {E : Env α} {args : List Str} {letters : List (Char × Option Str)} {operands : List Str} (hg : Given E execOptions args letters operands)
    (hh : ¬Has letters '-') :
    (operands = [] → execBuiltin E args = .stay 0) ∧
    (operands ≠ [] → E.posix = false → E.interactive = true → ¬Has letters 'f' → 0 < E.stopped → execBuiltin E args = .stay 1) := by
  obtain ⟨reports, used, hp, rfl⟩ := hg
  unfold execBuiltin
  simp only [hp, any_flag]
  rw [if_neg (fun x => hh (flag_iff.1 x))]
  constructor
  · rintro rfl; rfl
  · intro h1 h2 h3 h4 h5
    cases operands with
    | nil => exact absurd rfl h1
    | cons n ns =>
      have : flag (reports.map fun o => (o.1.short, o.2)) 'f' = false := by rw [← Bool.not_eq_true, flag_iff]; exact h4
      simp [h2, h3, this, h5]

/-- Wrong options: nothing is executed, the status is 2. -/
theorem exec_refused {E : Env α} {args : List Str} {reports : List Xgetopt.Report} {used ops : List Str} {e : Xgetopt.Err}
    (hp : Xgetopt.Spec.parse (E.getopt execOptions) none args = ⟨reports, used, ops, .error e⟩) (hh : ¬Has (reports.map fun o => (o.1.short, o.2)) '-') :
    execBuiltin E args = if E.posix = true ∧ E.special = true ∧ E.interactive = false then .exit 2 else .stay 2 := by
  unfold execBuiltin
  simp only [hp]
  rw [if_neg (fun x => hh ((any_has _ _).1 x))]
  cases E.posix <;> cases E.special <;> cases E.interactive <;> simp

/-- The options are what they are said to be. In the POSIXly-correct mode there are none. -/
theorem forms (E : Env α) {w : Str} (hw : w.head? ≠ some '-') (rest : List Str) :
    Given E dotOptions (w :: rest) [] (w :: rest) ∧ Given E execOptions (w :: rest) [] (w :: rest) ∧
    Given E dotOptions ("--".toList :: rest) [] rest ∧ Given E execOptions ("--".toList :: rest) [] rest ∧
    (E.posix = false →
      Given E dotOptions ("-A".toList :: w :: rest) [('A', none)] (w :: rest) ∧ Given E dotOptions ("-L".toList :: w :: rest) [('L', none)] (w :: rest) ∧
      Given E execOptions ("-c".toList :: w :: rest) [('c', none)] (w :: rest) ∧ Given E execOptions ("-f".toList :: w :: rest) [('f', none)] (w :: rest) ∧
      (∀ a, Given E execOptions ("-a".toList :: a :: w :: rest) [('a', some a)] (w :: rest))) ∧
    (E.posix = true → ∀ c cs, c ≠ '-' → (∀ s, dotBuiltin E (('-' :: c :: cs) :: rest) s = specialError E s) ∧
      execBuiltin E (('-' :: c :: cs) :: rest) = if E.special = true ∧ E.interactive = false then .exit 2 else .stay 2) := by
  have hop : ∀ opts last, Xgetopt.Spec.parse (E.getopt opts) last (w :: rest) = ⟨[], [], w :: rest, .done⟩ := by
    intro opts last
    have hk : Xgetopt.Spec.kind (E.getopt opts) w = .operand := by
      unfold Xgetopt.Spec.kind
      split <;> simp_all
    rw [Xgetopt.Spec.parse]
    have hfp : (E.getopt opts).flagPosix = true := rfl
    simp [hk, hfp]
  have hsep : ∀ opts, Xgetopt.Spec.parse (E.getopt opts) none ("--".toList :: rest) = ⟨[], ["--".toList], rest, .done⟩ := by
    intro opts
    rw [Xgetopt.Spec.parse]
    rfl
  have hshort : ∀ opts c (o : Xgetopt.Opt), c ≠ '-' → Xgetopt.Spec.findShort (E.getopt opts) c = some o → o.arg = .none →
      Xgetopt.Spec.parse (E.getopt opts) none (['-', c] :: w :: rest) = ⟨[(o, none)], [['-', c]], w :: rest, .done⟩ := by
    intro opts c o hc hf ha
    have hk : Xgetopt.Spec.kind (E.getopt opts) ['-', c] = .short [c] := by
      unfold Xgetopt.Spec.kind
      split <;> simp_all [Env.getopt]
    rw [Xgetopt.Spec.parse]
    simp [hk, Xgetopt.Spec.cluster, hf, ha, Xgetopt.Spec.Single.cons, hop]
  have hreq : ∀ opts c (o : Xgetopt.Opt), c ≠ '-' → Xgetopt.Spec.findShort (E.getopt opts) c = some o → o.arg = .required → ∀ a,
      Xgetopt.Spec.parse (E.getopt opts) none (['-', c] :: a :: w :: rest) = ⟨[(o, some a)], [['-', c], a], w :: rest, .done⟩ := by
    intro opts c o hc hf ha a
    have hk : Xgetopt.Spec.kind (E.getopt opts) ['-', c] = .short [c] := by
      unfold Xgetopt.Spec.kind
      split <;> simp_all [Env.getopt]
    rw [Xgetopt.Spec.parse]
    simp [hk, Xgetopt.Spec.cluster, hf, ha, hop]
  refine ⟨⟨[], [], hop _ _, rfl⟩, ⟨[], [], hop _ _, rfl⟩, ⟨[], _, hsep _, rfl⟩, ⟨[], _, hsep _, rfl⟩, ?_, ?_⟩
  · intro hx
    refine ⟨⟨_, _, hshort _ 'A' ⟨'A', some "no-alias".toList, .none, false⟩ (by decide) ?_ rfl, rfl⟩, ⟨_, _, hshort _ 'L' ⟨'L', some "autoload".toList, .none, false⟩ (by decide) ?_ rfl, rfl⟩,
      ⟨_, _, hshort _ 'c' ⟨'c', some "clear".toList, .none, false⟩ (by decide) ?_ rfl, rfl⟩, ⟨_, _, hshort _ 'f' ⟨'f', some "force".toList, .none, false⟩ (by decide) ?_ rfl, rfl⟩,
      fun a => ⟨_, _, hreq _ 'a' ⟨'a', some "as".toList, .required, false⟩ (by decide) ?_ rfl a, rfl⟩⟩
    all_goals simp [Xgetopt.Spec.findShort, Env.getopt, dotOptions, execOptions, hx]
  · intro hx c cs hc
    have hb : ∀ opts, (∀ o ∈ opts, (o : Xgetopt.Opt).posix = false) →
        Xgetopt.Spec.parse (E.getopt opts) none (('-' :: c :: cs) :: rest) = ⟨[], [], ('-' :: c :: cs) :: rest, .error .noSuchOption⟩ := by
      intro opts ho
      have hk : Xgetopt.Spec.kind (E.getopt opts) ('-' :: c :: cs) = .short (c :: cs) := by
        unfold Xgetopt.Spec.kind
        split <;> simp_all [Env.getopt]
      have hf : Xgetopt.Spec.findShort (E.getopt opts) c = none := by
        unfold Xgetopt.Spec.findShort
        rw [if_neg hc, List.find?_eq_none]
        intro o hm
        simp [Env.getopt, hx, ho o hm]
      rw [Xgetopt.Spec.parse]
      simp [hk, Xgetopt.Spec.cluster, hf]
    constructor
    · intro s
      unfold dotBuiltin
      rw [hb _ (by decide)]
      rfl
    · unfold execBuiltin
      rw [hb _ (by decide)]
      simp only [hx]
      cases E.special <;> cases E.interactive <;> simp

/-- `--help` prints the help and executes nothing. -/
theorem helps {E : Env α} {args : List Str} (s : State α) :
    (Has ((Xgetopt.Spec.parse (E.getopt dotOptions) none args).reports.map fun o => (o.1.short, o.2)) '-' → dotBuiltin E args s = .help) ∧
    (Has ((Xgetopt.Spec.parse (E.getopt execOptions) none args).reports.map fun o => (o.1.short, o.2)) '-' → execBuiltin E args = .help) := by
  constructor
  · intro h; unfold dotBuiltin; simp only []; rw [if_pos ((any_has _ _).2 h)]
  · intro h; unfold execBuiltin; simp only []; rw [if_pos ((any_has _ _).2 h)]

/-- A name given with `-a` that cannot be given to the system: nothing is executed. -/
theorem exec_as_unconvertible {E : Env α} {args : List Str} {letters : List (Char × Option Str)} {name a b : Str} {params : List Str}
    (hg : Given E execOptions args letters (name :: params)) (hh : ¬Has letters '-')
    (hj : E.posix = true ∨ E.interactive = false ∨ Has letters 'f' ∨ E.stopped = 0) (ha : AsName letters (some a)) (hn : E.bytes name = some b) (hb : E.bytes a = none) :
    execBuiltin E args = if E.interactive = true ∧ E.posix = false then .stay 126 else .exit 126 := by
  rw [exec_eq hg hh hj ha, ← exec_failed]
  unfold execBuiltin2
  simp only [hn, argv0Of, hb]

/-- A name that cannot be given to the system: nothing is executed. -/
theorem unconvertible {E : Env α} {args : List Str} {letters : List (Char × Option Str)} {name : Str} {params : List Str} (hh : ¬Has letters '-') (hn : E.bytes name = none) :
    (Given E dotOptions args letters (name :: params) → (params = [] ∨ E.posix = false) → ∀ s, dotBuiltin E args s = .stay none s 2) ∧
    (Given E execOptions args letters (name :: params) → (E.posix = true ∨ E.interactive = false ∨ Has letters 'f' ∨ E.stopped = 0) →
      execBuiltin E args = if E.interactive = true ∧ E.posix = false then .stay 126 else .exit 126) := by
  constructor
  · intro hg hx s
    have hx' : ¬(params ≠ [] ∧ E.posix = true) := by
      rintro ⟨h1, h2⟩
      rcases hx with h | h
      · exact h1 h
      · rw [h2] at h; cases h
    rw [dot_eq hg hh, if_neg hx', hn]
  · intro hg hj
    have ⟨as, ha⟩ : ∃ as, AsName letters as := by
      obtain ⟨reports, used, -, rfl⟩ := hg
      exact ⟨lastAs reports none, (lastAs_spec reports none).elim Or.inl Or.inr⟩
    rw [exec_eq hg hh hj ha, ← exec_failed]
    unfold execBuiltin2
    rw [hn]

end Yash.Source
