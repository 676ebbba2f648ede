import Verif.Startup.Spec
import Verif.Shopt.Set
import Verif.Shopt.Total
/-!
# C93: what the arguments of the shell mean, and which initialization files are executed
-/
set_option autoImplicit false

namespace Yash.Startup

open Shopt (Str Var State Invocation World Status parseOptions setLineedit)
open Spec

variable {α : Type}

/-! ## The name of the program -/

theorem afterSlash_spec (s : Str) : ∃ dir, s = dir ++ afterSlash s ∧ (dir = [] ∨ ∃ d, dir = d ++ ['/']) ∧ '/' ∉ afterSlash s := by
  unfold afterSlash
  split
  · next h =>
    have h1 : '/' ∈ s.reverse := by simpa using h
    have h2 := List.takeWhile_append_dropWhile (p := fun c => decide (c ≠ '/')) (l := s.reverse)
    refine ⟨(s.reverse.dropWhile (· ≠ '/')).reverse, ?_, Or.inr ?_, ?_⟩
    · rw [← List.reverse_append, h2, List.reverse_reverse]
    · cases hd : s.reverse.dropWhile (· ≠ '/') with
      | nil =>
        rw [hd, List.append_nil] at h2
        have := List.all_takeWhile (p := fun c => decide (c ≠ '/')) (l := s.reverse)
        rw [h2, List.all_eq_true] at this
        exact absurd (this _ h1) (by simp)
      | cons c cs =>
        have : c = '/' := by
          have := List.head_dropWhile_not (fun c => decide (c ≠ '/')) (l := s.reverse) (by rw [hd]; simp)
          simp only [hd, List.head_cons] at this
          simpa using this
        exact ⟨cs.reverse, by simp [this]⟩
    · intro hm
      rw [List.mem_reverse] at hm
      have := List.all_takeWhile (p := fun c => decide (c ≠ '/')) (l := s.reverse)
      rw [List.all_eq_true] at this
      simpa using this _ hm
  · next h => exact ⟨[], rfl, Or.inl rfl, by simpa using h⟩

theorem last_slash_unique {d1 b1 d2 b2 : Str} (h : d1 ++ b1 = d2 ++ b2) (h1 : '/' ∉ b1) (h2 : '/' ∉ b2) (hd1 : d1 = [] ∨ ∃ d, d1 = d ++ ['/'])
    (hd2 : d2 = [] ∨ ∃ d, d2 = d ++ ['/']) : b1 = b2 := by
  rcases List.append_eq_append_iff.1 h with ⟨m, e1, e2⟩ | ⟨m, e1, e2⟩
  · rcases hd2 with rfl | ⟨d, rfl⟩
    · have : m = [] := by
        have := congrArg List.length e1
        simp at this
        exact List.eq_nil_of_length_eq_zero (by omega)
      simpa [this] using e2
    · rcases List.eq_nil_or_concat m with hm | ⟨m', c, hm⟩
      · simpa [hm] using e2
      · rw [List.concat_eq_append] at hm
        subst hm
        rw [← List.append_assoc] at e1
        have := (List.append_inj' e1 rfl).2
        simp at this
        subst this
        exact absurd (by simp [e2]) h1
  · rcases hd1 with rfl | ⟨d, rfl⟩
    · have : m = [] := by
        have := congrArg List.length e1
        simp at this
        exact List.eq_nil_of_length_eq_zero (by omega)
      simpa [this] using e2.symm
    · rcases List.eq_nil_or_concat m with hm | ⟨m', c, hm⟩
      · simpa [hm] using e2.symm
      · rw [List.concat_eq_append] at hm
        subst hm
        rw [← List.append_assoc] at e1
        have := (List.append_inj' e1 rfl).2
        simp at this
        subst this
        exact absurd (by simp [e2]) h2

/-- The name of the program selects the POSIXly-correct mode if and only if it is `sh`, whatever the directory and with or without a hyphen. -/
theorem startup_name (name : Str) : namedSh name = true ↔ CalledSh name := by
  obtain ⟨dir, h1, h2, h3⟩ := afterSlash_spec name
  simp only [namedSh, decide_eq_true_eq]
  constructor
  · intro h
    refine ⟨dir, afterSlash name, h1, h2, ?_⟩
    split at h
    · next hh =>
      cases ha : afterSlash name with
      | nil => rw [ha] at hh; cases hh
      | cons c cs =>
        rw [ha] at hh h
        simp at hh h
        subst hh
        exact Or.inr (by rw [h])
    · exact Or.inl h
  · rintro ⟨d, b, e, hd, hb⟩
    have : afterSlash name = b := by
      refine last_slash_unique (h1.symm.trans e) h3 ?_ h2 hd
      rcases hb with rfl | rfl <;> decide
    rw [this]
    rcases hb with rfl | rfl <;> decide

/-! ## The initialization files -/

theorem executeFileMbs_first (E : Env α) (p : Option Str) (s : Sys α) :
    FirstRun E s p.toList (executeFileMbs E p s).files (executeFileMbs E p s).state ∧
    ((executeFileMbs E p s).found = false → (executeFileMbs E p s).files = [] ∧ (executeFileMbs E p s).state = some s ∧ ∀ q ∈ p.toList, E.canOpen s q = false) ∧
    ((executeFileMbs E p s).found = true → ∃ q, p = some q ∧ E.canOpen s q = true ∧ (executeFileMbs E p s).files = [q] ∧ (executeFileMbs E p s).state = E.run s q) := by
  cases p with
  | none => exact ⟨.nothing (by simp), by simp [executeFileMbs], by simp [executeFileMbs]⟩
  | some p =>
    simp only [executeFileMbs]
    split
    · next h => exact ⟨.first (before := []) (after := []) (by simp) h, by simp, fun _ => ⟨p, rfl, h, rfl, rfl⟩⟩
    · next h =>
      have h : E.canOpen s p = false := by simpa using h
      exact ⟨.nothing (by simpa using h), by simpa using h, by simp⟩

/-- The result of trying to execute the files in order, and whether one of them has been executed. -/
def Tried (E : Env α) (s : Sys α) (names : List Str) (o : Out α) : Prop :=
  (o.found = false → o.files = [] ∧ o.state = some s ∧ ∀ q ∈ names, E.canOpen s q = false) ∧
  (o.found = true → ∃ before q after, names = before ++ q :: after ∧ (∀ b ∈ before, E.canOpen s b = false) ∧ E.canOpen s q = true ∧ o.files = [q] ∧
    o.state = E.run s q)

theorem Tried.firstRun {E : Env α} {s : Sys α} {names : List Str} {o : Out α} (h : Tried E s names o) : FirstRun E s names o.files o.state := by
  cases hf : o.found
  · obtain ⟨h1, h2, h3⟩ := h.1 hf
    rw [h1, h2]
    exact .nothing h3
  · obtain ⟨b, q, a, rfl, h1, h2, h3, h4⟩ := h.2 hf
    rw [h3, h4]
    exact .first h1 h2

theorem tried_mbs (E : Env α) (p : Option Str) (s : Sys α) : Tried E s p.toList (executeFileMbs E p s) := by
  obtain ⟨-, h1, h2⟩ := executeFileMbs_first E p s
  refine ⟨h1, fun h => ?_⟩
  obtain ⟨q, rfl, h3, h4, h5⟩ := h2 h
  exact ⟨[], q, [], rfl, by simp, h3, h4, h5⟩

theorem tried_file (E : Env α) (p : Option Str) (s : Sys α) : Tried E s (asBytes E p.toList) (executeFile E p s) := by
  cases p with
  | none => exact ⟨by simp [executeFile, asBytes], by simp [executeFile]⟩
  | some p =>
    have : asBytes E (some p).toList = (E.bytes p).toList := by
      simp only [asBytes, Option.toList_some, List.filterMap_cons, List.filterMap_nil]
      cases E.bytes p <;> rfl
    rw [this]
    exact tried_mbs E _ s

theorem tried_in (E : Env α) (v f : Str) (s : Sys α) : ∃ o, executeFileIn E v f s = some o ∧ Tried E s (asBytes E (inDir (E.var s v) f)) o := by
  unfold executeFileIn
  cases hv : E.var s v with
  | none => exact ⟨_, rfl, by simp [inDir, asBytes], by simp⟩
  | some d =>
    by_cases hd : d = []
    · subst hd
      exact ⟨_, rfl, by simp [inDir, asBytes], by simp⟩
    · have hlen : d.length ≠ 0 := by simpa using hd
      have hget : d[d.length - 1]? = some (d.getLast hd) := by rw [List.getLast_eq_getElem, List.getElem?_eq_getElem (by omega)]
      simp only [if_neg hd, hget]
      have hin : inDir (some d) f = [(if d.getLast hd ≠ '/' then d ++ ['/'] else d) ++ f] := by
        have hiff : d.getLast? = some '/' ↔ d.getLast hd = '/' := by rw [List.getLast?_eq_some_getLast hd]; simp
        cases d with
        | nil => exact absurd rfl hd
        | cons c cs =>
          simp only [inDir]
          by_cases h : (c :: cs).getLast hd = '/'
          · rw [if_pos (hiff.2 h), if_neg (by simpa using h)]
          · rw [if_neg (fun h' => h (hiff.1 h')), if_pos h]
      exact ⟨_, rfl, by rw [hin]; exact tried_file E (some _) s⟩

theorem tried_orElse {E : Env α} {s : Sys α} {n1 n2 : List Str} {o : Out α} {next : Sys α → Option (Out α)} (h1 : Tried E s n1 o)
    (h2 : ∃ o', next s = some o' ∧ Tried E s n2 o') : ∃ o', orElse (some o) next = some o' ∧ Tried E s (n1 ++ n2) o' := by
  obtain ⟨o', e, h2⟩ := h2
  simp only [orElse]
  cases hf : o.found
  · obtain ⟨h3, h4, h5⟩ := h1.1 hf
    refine ⟨o', by simp [h4, e, h3], fun h => ?_, fun h => ?_⟩
    · obtain ⟨h6, h7, h8⟩ := h2.1 h
      refine ⟨h6, h7, fun q hq => ?_⟩
      rcases List.mem_append.1 hq with hq | hq
      · exact h5 q hq
      · exact h8 q hq
    · obtain ⟨b, q, a, rfl, h6, h7, h8, h9⟩ := h2.2 h
      refine ⟨n1 ++ b, q, a, by simp, fun x hx => ?_, h7, h8, h9⟩
      rcases List.mem_append.1 hx with hx | hx
      · exact h5 x hx
      · exact h6 x hx
  · refine ⟨o, by simp, by simp [hf], fun _ => ?_⟩
    obtain ⟨b, q, a, rfl, h6, h7, h8, h9⟩ := h1.2 hf
    exact ⟨b, q, a ++ n2, by simp, h6, h7, h8, h9⟩

theorem asBytes_append (E : Env α) (a b : List Str) : asBytes E (a ++ b) = asBytes E a ++ asBytes E b := List.filterMap_append ..

/-- The profile is the first file that can be opened of those that are its places. -/
theorem profile_first (E : Env α) (given : Option Str) (s : Sys α) :
    ∃ o, executeProfile E given s = some o ∧ FirstRun E s (asBytes E (profilePlaces E s given)) o.files o.state := by
  unfold executeProfile
  cases given with
  | some f => exact ⟨_, rfl, (tried_file E (some f) s).firstRun⟩
  | none =>
    simp only [Option.isSome_none, Bool.false_eq_true, if_false, profilePlaces, asBytes_append]
    obtain ⟨o1, e1, t1⟩ := tried_in E "XDG_CONFIG_HOME".toList "yash/profile".toList s
    obtain ⟨o2, e2, t2⟩ := tried_in E "HOME".toList ".config/yash/profile".toList s
    rw [e1, List.append_assoc]
    have h2 : ∃ o', orElse (executeFileIn E "HOME".toList ".config/yash/profile".toList s) (fun s =>
        executeFileIn E "HOME".toList ".yash_profile".toList s) = some o' ∧ Tried E s (asBytes E (inDir (E.var s "HOME".toList) ".config/yash/profile".toList) ++
        asBytes E (inDir (E.var s "HOME".toList) ".yash_profile".toList)) o' := by
      rw [e2]
      exact tried_orElse t2 (tried_in E _ _ s)
    obtain ⟨o, e, t⟩ := tried_orElse (next := fun s => orElse (executeFileIn E "HOME".toList ".config/yash/profile".toList s) fun s =>
      executeFileIn E "HOME".toList ".yash_profile".toList s) t1 h2
    exact ⟨o, e, t.firstRun⟩

theorem which_default (E : Env α) (s : Sys α) : DefaultRc E s (Path.which "initialization/default".toList (E.loadpath s) (E.readable s)).toList := by
  have hw : Path.which "initialization/default".toList (E.loadpath s) (E.readable s) =
      match E.loadpath s with
      | none => none
      | some dirs => Path.whichLoop (E.readable s) "initialization/default".toList dirs := rfl
  rw [hw]
  cases hl : E.loadpath s with
  | none => exact .missing (fun ds h => by rw [hl] at h; cases h)
  | some dirs =>
    simp only
    have key : ∀ ds : List Str,
        (∃ b d a, ds = b ++ d :: a ∧ (∀ x ∈ b, E.readable s (Path.whichPath x "initialization/default".toList) = false) ∧
          E.readable s (Path.whichPath d "initialization/default".toList) = true ∧
          Path.whichLoop (E.readable s) "initialization/default".toList ds = some (Path.whichPath d "initialization/default".toList)) ∨
        ((∀ x ∈ ds, E.readable s (Path.whichPath x "initialization/default".toList) = false) ∧
          Path.whichLoop (E.readable s) "initialization/default".toList ds = none) := by
      intro ds
      induction ds with
      | nil => exact Or.inr ⟨by simp, rfl⟩
      | cons d ds ih =>
        cases hr : E.readable s (Path.whichPath d "initialization/default".toList) with
        | true => exact Or.inl ⟨[], d, ds, rfl, by simp, hr, by rw [Path.whichLoop, if_pos hr]⟩
        | false =>
          have e : Path.whichLoop (E.readable s) "initialization/default".toList (d :: ds) = Path.whichLoop (E.readable s) "initialization/default".toList ds := by
            rw [Path.whichLoop, if_neg (by rw [hr]; decide)]
          rw [e]
          rcases ih with ⟨b, d', a, rfl, h1, h2, h3⟩ | ⟨h1, h2⟩
          · exact Or.inl ⟨d :: b, d', a, rfl, fun x hx => (List.mem_cons.1 hx).elim (fun h => h ▸ hr) (h1 x), h2, h3⟩
          · exact Or.inr ⟨fun x hx => (List.mem_cons.1 hx).elim (fun h => h ▸ hr) (h1 x), h2⟩
    rcases key dirs with ⟨b, d, a, h1, h2, h3, h4⟩ | ⟨h1, h2⟩
    · rw [h4]
      exact .found hl h1 h2 h3
    · rw [h2]
      refine .missing fun ds h => ?_
      rw [hl] at h
      cases h
      exact h1

/-- The initialization file of an interactive shell. -/
theorem rc_first (E : Env α) (given : Option Str) (s : Sys α) : ∃ o, executeRcfile E given s = some o ∧ RcRun E s given o.files o.state := by
  unfold executeRcfile
  cases hp : s.opts.val .posixlycorrect with
  | true =>
    simp only [if_true]
    cases hv : E.var s "ENV".toList with
    | none => exact ⟨_, rfl, .posixUnset hp hv⟩
    | some v => exact ⟨_, rfl, .posix hp hv (tried_file E _ _).firstRun⟩
  | false =>
    simp only [Bool.false_eq_true, if_false]
    cases hg : given with
    | some f => exact ⟨_, rfl, .given hp rfl (tried_file E (some f) s).firstRun⟩
    | none =>
      simp only [Option.isSome_none, Bool.false_eq_true, if_false]
      obtain ⟨o1, e1, t1⟩ := tried_in E "XDG_CONFIG_HOME".toList "yash/rc".toList s
      obtain ⟨o2, e2, t2⟩ := tried_in E "HOME".toList ".config/yash/rc".toList s
      obtain ⟨o3, e3, t3⟩ := tried_in E "HOME".toList ".yashrc".toList s
      have h3 := tried_orElse (next := fun s => some (executeFileMbs E (Path.which "initialization/default".toList (E.loadpath s) (E.readable s)) s)) t3
        ⟨_, rfl, tried_mbs E _ s⟩
      rw [← e3] at h3
      have h2 := tried_orElse (next := fun s => orElse (executeFileIn E "HOME".toList ".yashrc".toList s) fun s =>
        some (executeFileMbs E (Path.which "initialization/default".toList (E.loadpath s) (E.readable s)) s)) t2 h3
      rw [← e2] at h2
      obtain ⟨o, e, t⟩ := tried_orElse (next := fun s => orElse (executeFileIn E "HOME".toList ".config/yash/rc".toList s) fun s =>
        orElse (executeFileIn E "HOME".toList ".yashrc".toList s) fun s =>
        some (executeFileMbs E (Path.which "initialization/default".toList (E.loadpath s) (E.readable s)) s)) t1 h2
      rw [← e1] at e
      refine ⟨o, e, .places hp rfl (which_default E s) ?_⟩
      have := t.firstRun
      simpa only [asBytes_append, List.append_assoc] using this

theorem sameIds_iff (E : Env α) : sameIds E = true ↔ OwnRights E := by simp [sameIds, OwnRights]

/-- What is executed before the input. -/
theorem runInit_spec (E : Env α) (inv : Invocation) (s : Sys α) : ∃ files out, runInit E inv s = some (files, out) ∧ Initialized E inv s files out := by
  -- the profile
  have hprofile : ∃ p mid, runProfile E inv s = some (p, mid) ∧
      (s.opts.val .login = true ∧ s.opts.val .posixlycorrect = false ∧ inv.noprofile = false ∧ OwnRights E →
        FirstRun E s (asBytes E (profilePlaces E s inv.profile)) p mid) ∧
      (¬(s.opts.val .login = true ∧ s.opts.val .posixlycorrect = false ∧ inv.noprofile = false ∧ OwnRights E) → p = [] ∧ mid = some s) := by
    unfold runProfile
    by_cases hc : (s.opts.val .login && !s.opts.val .posixlycorrect && !inv.noprofile) = true
    · rw [if_pos hc]
      by_cases hi : sameIds E = true
      · rw [if_pos hi]
        obtain ⟨o, e, h⟩ := profile_first E inv.profile s
        refine ⟨o.files, o.state, by rw [e]; rfl, fun _ => h, fun hn => absurd ⟨?_, ?_, ?_, (sameIds_iff E).1 hi⟩ hn⟩ <;> simp_all
      · rw [if_neg hi]
        exact ⟨_, _, rfl, fun h => absurd ((sameIds_iff E).2 h.2.2.2) hi, fun _ => ⟨rfl, rfl⟩⟩
    · rw [if_neg hc]
      exact ⟨_, _, rfl, fun h => absurd (by simp [h.1, h.2.1, h.2.2.1]) hc, fun _ => ⟨rfl, rfl⟩⟩
  obtain ⟨p, mid, e, h1, h2⟩ := hprofile
  unfold runInit
  rw [e]
  cases mid with
  | none => exact ⟨p, none, rfl, .mk h1 h2 (fun _ => ⟨rfl, rfl⟩) (by intro s' h; cases h) (by intro s' h; cases h)⟩
  | some s1 =>
    simp only
    by_cases hc : (s1.opts.val .interactive && !inv.norcfile) = true
    · rw [if_pos hc]
      by_cases hi : sameIds E = true
      · rw [if_pos hi]
        obtain ⟨o, e', h⟩ := rc_first E inv.rcfile s1
        refine ⟨p ++ o.files, o.state, by rw [e']; rfl, .mk h1 h2 (by intro h; cases h) ?_ ?_⟩
        · intro s' hs _
          cases hs
          exact ⟨_, rfl, h⟩
        · intro s' hs hn
          cases hs
          refine absurd ⟨?_, ?_, (sameIds_iff E).1 hi⟩ hn <;> simp_all
      · rw [if_neg hi]
        refine ⟨p, some s1, rfl, .mk h1 h2 (by intro h; cases h) ?_ ?_⟩
        · intro s' _ h
          exact absurd ((sameIds_iff E).2 h.2.2) hi
        · intro s' hs _
          cases hs
          exact ⟨rfl, rfl⟩
    · rw [if_neg hc]
      refine ⟨p, some s1, rfl, .mk h1 h2 (by intro h; cases h) ?_ ?_⟩
      · intro s' hs h
        cases hs
        exact absurd (by simp [h.1, h.2.1]) hc
      · intro s' hs _
        cases hs
        exact ⟨rfl, rfl⟩

/-! ## The arguments -/

/-- The options before the arguments are parsed: the name of the program decides on two of them. -/
def named (s : State) (name : Str) : State :=
  let s := s.set .login (name.head? = some '-')
  if namedSh name then s.set .posixlycorrect true else s

theorem main_parsed {E : Env α} {s s' : State} {rest : α} {argv ops : List Str} {inv : Invocation}
    (hp : parseOptions E.world (some {}) (argv.drop 1) (named s (argv.headD [])) = some ((.success, some inv, s'), ops))
    (hv : inv.version = false) (hh : inv.help = false) :
    main E s rest argv = match chooseInput E argv.length (argv.headD []) inv s' ops with
      | none => none
      | some (.inl n) => some (.exit n)
      | some (.inr (start, ops)) =>
        (runInit E inv ⟨settle E inv start.opts ops, rest⟩).map fun r => .started { start with opts := settle E inv start.opts ops } r.1 r.2 := by
  show (match parseOptions E.world (some {}) (argv.drop 1) (named s (argv.headD [])) with
    | none => none
    | some ((_, none, _), _) => none
    | some ((st, some inv, s), ops) => _) = _
  rw [hp]
  simp only [hv, hh]
  rfl

theorem main_started {E : Env α} {s : State} {rest : α} {argv : List Str} {st : Start} {files : List Str} {out : Option (Sys α)}
    (h : main E s rest argv = some (.started st files out)) :
    ∃ inv s' ops, parseOptions E.world (some {}) (argv.drop 1) (named s (argv.headD [])) = some ((.success, some inv, s'), ops) ∧
      runInit E inv ⟨st.opts, rest⟩ = some (files, out) := by
  have hm : main E s rest argv = (match parseOptions E.world (some {}) (argv.drop 1) (named s (argv.headD [])) with
    | none => none
    | some ((_, none, _), _) => none
    | some ((st, some inv, s), ops) =>
      if st ≠ .success then some (.exit (statusNumber st))
      else if inv.version || inv.help then some (.exit (if E.prints then 0 else 1))
      else
        match chooseInput E argv.length (argv.headD []) inv s ops with
        | none => none
        | some (.inl n) => some (.exit n)
        | some (.inr (start, ops)) =>
          let opts := settle E inv start.opts ops
          (runInit E inv ⟨opts, rest⟩).map fun r => .started { start with opts } r.1 r.2) := rfl
  rw [hm] at h
  split at h
  · cases h
  · cases h
  · next st' inv s' ops hp =>
    split at h
    · cases h
    · next hst =>
      have hst : st' = .success := Decidable.not_not.1 hst
      subst hst
      split at h
      · cases h
      · split at h
        · cases h
        · cases h
        · next start ops' _ =>
          refine ⟨inv, s', ops, hp, ?_⟩
          simp only [Option.map_eq_some_iff] at h
          obtain ⟨⟨f, o⟩, h1, h2⟩ := h
          cases h2
          exact h1

/-- Whenever the shell starts, the initialization files that have been executed are those specified. -/
theorem startup_files {E : Env α} {s : State} {rest : α} {argv : List Str} {st : Start} {files : List Str} {out : Option (Sys α)}
    (h : main E s rest argv = some (.started st files out)) :
    ∃ inv s' ops, parseOptions E.world (some {}) (argv.drop 1) (named s (argv.headD [])) = some ((.success, some inv, s'), ops) ∧
      Initialized E inv ⟨st.opts, rest⟩ files out := by
  obtain ⟨inv, s', ops, hp, hr⟩ := main_started h
  obtain ⟨f, o, e, hi⟩ := runInit_spec E inv ⟨st.opts, rest⟩
  rw [hr] at e
  cases e
  exact ⟨inv, s', ops, hp, hi⟩

/-- A shell that runs with other rights than those of the user who has started it executes no file before its input, whatever the arguments and
the variables are. -/
theorem startup_rights {E : Env α} {s : State} {rest : α} {argv : List Str} {st : Start} {files : List Str} {out : Option (Sys α)}
    (h : main E s rest argv = some (.started st files out)) (hr : E.uid ≠ E.euid ∨ E.gid ≠ E.egid) : files = [] ∧ out = some ⟨st.opts, rest⟩ := by
  obtain ⟨inv, s', ops, -, hi⟩ := startup_files h
  have hn : ¬OwnRights E := by rintro ⟨h1, h2⟩; rcases hr with hr | hr <;> contradiction
  cases hi with
  | mk _ h2 _ _ h5 =>
    obtain ⟨rfl, rfl⟩ := h2 (fun h => hn h.2.2.2)
    exact h5 _ rfl (fun h => hn h.2.2)

/-- A shell that is neither a login shell nor interactive executes no file before its input. -/
theorem startup_plain {E : Env α} {s : State} {rest : α} {argv : List Str} {st : Start} {files : List Str} {out : Option (Sys α)}
    (h : main E s rest argv = some (.started st files out)) (hl : st.opts.val .login = false ∨ st.opts.val .posixlycorrect = true)
    (hi : st.opts.val .interactive = false) : files = [] ∧ out = some ⟨st.opts, rest⟩ := by
  obtain ⟨inv, s', ops, -, hin⟩ := startup_files h
  cases hin with
  | mk _ h2 _ _ h5 =>
    obtain ⟨rfl, rfl⟩ := h2 (fun h => by rcases hl with hl | hl <;> simp_all)
    exact h5 _ rfl (fun h => by simp_all)

theorem settle_val (E : Env α) (inv : Invocation) (s : State) (ops : List Str) (v : Var) :
    (settle E inv s ops).val v =
      if v = .monitor then ((if inv.jobControlSet then s.val .monitor else s.val .interactive) && E.world.tty)
      else if v = .vi ∨ v = .emacs then
        (if inv.lineeditSet = false ∧ s.lineedit = .noLineEdit ∧ s.val .interactive = true ∧ E.ttyIn = true ∧ E.ttyErr = true then decide (v = .vi) else s.val v)
      else s.val v := by
  unfold settle
  cases inv.lineeditSet <;> cases h2 : s.lineedit <;> cases h3 : s.val .interactive <;> cases E.ttyIn <;> cases E.ttyErr <;> cases inv.jobControlSet <;>
    cases E.world.tty <;> cases h4 : s.val .monitor <;> simp_all [setLineedit, State.set] <;> grind

/-- What the arguments after the options mean; the options of the command line are `inv` and `s`. -/
theorem startup_decided {E : Env α} {s s' : State} {rest : α} {name : Str} {args ops : List Str} {inv : Invocation}
    (hp : parseOptions E.world (some {}) args (named s name) = some ((.success, some inv, s'), ops))
    (hv : inv.version = false) (hh : inv.help = false) :
    (∃ n, Rejected E s' ops n ∧ main E s rest (name :: args) = some (.exit n)) ∨
    ∃ st files out, main E s rest (name :: args) = some (.started st files out) ∧
      Decided E name inv s' ops st.input st.name st.opts.params (st.opts.val .interactive) ∧
      (st.opts.val .stdin = true ↔ st.input = .stdin) ∧
      st.opts.val .monitor = ((if inv.jobControlSet then s'.val .monitor else st.opts.val .interactive) && E.world.tty) ∧
      (st.opts.val .vi = true ↔ s'.val .vi = true ∨
        inv.lineeditSet = false ∧ s'.lineedit = .noLineEdit ∧ st.opts.val .interactive = true ∧ E.ttyIn = true ∧ E.ttyErr = true) ∧
      (∀ v, v ∉ [Var.stdin, .interactive, .monitor, .vi, .emacs] → st.opts.val v = s'.val v) := by
  rw [main_parsed (argv := name :: args) hp hv hh]
  have hrun : ∀ (start : Start) (o : List Str), Decided E name inv s' ops start.input start.name o (start.opts.val .interactive) →
      (start.opts.val .stdin = true ↔ start.input = .stdin) → start.opts.val .monitor = s'.val .monitor →
      start.opts.val .vi = s'.val .vi ∧ start.opts.lineedit = s'.lineedit → (∀ v, v ∉ [Var.stdin, .interactive, .monitor, .vi, .emacs] → start.opts.val v = s'.val v) →
      ∃ st files out, ((runInit E inv ⟨settle E inv start.opts o, rest⟩).map fun r =>
          Outcome.started { start with opts := settle E inv start.opts o } r.1 r.2) = some (.started st files out) ∧
        Decided E name inv s' ops st.input st.name st.opts.params (st.opts.val .interactive) ∧
        (st.opts.val .stdin = true ↔ st.input = .stdin) ∧
        st.opts.val .monitor = ((if inv.jobControlSet then s'.val .monitor else st.opts.val .interactive) && E.world.tty) ∧
        (st.opts.val .vi = true ↔ s'.val .vi = true ∨
        inv.lineeditSet = false ∧ s'.lineedit = .noLineEdit ∧ st.opts.val .interactive = true ∧ E.ttyIn = true ∧ E.ttyErr = true) ∧
      (∀ v, v ∉ [Var.stdin, .interactive, .monitor, .vi, .emacs] → st.opts.val v = s'.val v) := by
    intro start o h1 h2 h3 hvi h4
    obtain ⟨f, out, e, -⟩ := runInit_spec E inv ⟨settle E inv start.opts o, rest⟩
    refine ⟨{ start with opts := settle E inv start.opts o }, f, out, by rw [e]; rfl, ?_, ?_, ?_, ?_, ?_⟩
    · have : (settle E inv start.opts o).val .interactive = start.opts.val .interactive := by rw [settle_val]; simp
      have hp : (settle E inv start.opts o).params = o := rfl
      simpa only [this, hp] using h1
    · have : (settle E inv start.opts o).val .stdin = start.opts.val .stdin := by rw [settle_val]; simp
      simpa only [this] using h2
    · simp only [settle_val, h3]
      simp
    · simp only [settle_val, hvi.1, hvi.2]
      simp
      exact or_comm
    · intro v hv
      simp only [settle_val]
      rw [if_neg (by intro h; subst h; exact hv (by decide)), if_neg (by rintro (h | h) <;> subst h <;> exact hv (by decide))]
      exact h4 v hv
  simp only [List.headD_cons, chooseInput, List.length_cons]
  cases hc : s'.val .cmdline with
  | true =>
    cases hs : s'.val .stdin with
    | true => exact Or.inl ⟨2, .both hc hs, by simp⟩
    | false =>
      rcases ops with _ | ⟨cmd, _ | ⟨n, more⟩⟩
      · exact Or.inl ⟨2, .noCommand hc hs, by simp⟩
      · refine Or.inr ?_
        simp only [Bool.true_and, Bool.false_eq_true, if_false, if_true]
        exact hrun ⟨.command cmd (if s'.val .posixlycorrect then "sh -c".toList else "yash -c".toList), name, s'⟩ [] (.commandOnly hc hs)
          ⟨fun h => absurd (hs.symm.trans h) (by decide), fun h => by cases h⟩ rfl ⟨rfl, rfl⟩ (fun _ _ => rfl)
      · refine Or.inr ?_
        simp only [Bool.true_and, Bool.false_eq_true, if_false, if_true]
        exact hrun ⟨.command cmd n, n, s'⟩ more (.command hc hs) ⟨fun h => absurd (hs.symm.trans h) (by decide), fun h => by cases h⟩ rfl ⟨rfl, rfl⟩ (fun _ _ => rfl)
  | false =>
    simp only [Bool.false_and, Bool.false_eq_true, if_false]
    have hlen : decide (args.length + 1 ≠ 0) = true := by simp
    simp only [hlen, Bool.true_and]
    by_cases hs : s'.val .stdin = true ∨ ops = []
    · have h1 : (if ops.isEmpty = true then s'.set .stdin true else s').val .stdin = true := by
        rcases hs with hs | rfl
        · split <;> simp [State.set, hs]
        · simp [State.set]
      have h2 : ∀ v, v ≠ .stdin → (if ops.isEmpty = true then s'.set .stdin true else s').val v = s'.val v := by
        intro v hv
        split <;> simp [State.set, hv]
      rw [if_pos h1]
      have h2' : (if ops.isEmpty = true then s'.set .stdin true else s').lineedit = s'.lineedit := by split <;> rfl
      generalize (if ops.isEmpty = true then s'.set .stdin true else s') = s1 at h1 h2 h2'
      have h3 : ∀ v, v ≠ .interactive →
          (if (!inv.interactiveSet && ops.isEmpty && E.ttyIn && E.ttyErr) = true then s1.set .interactive true else s1).val v = s1.val v := by
        intro v hv
        split <;> simp [State.set, hv]
      have h4 : (if (!inv.interactiveSet && ops.isEmpty && E.ttyIn && E.ttyErr) = true then s1.set .interactive true else s1).val .interactive = true ↔
          s'.val .interactive = true ∨ inv.interactiveSet = false ∧ ops = [] ∧ E.ttyIn = true ∧ E.ttyErr = true := by
        have h5 := h2 .interactive (by decide)
        split
        · next h =>
          simp only [Bool.and_eq_true, Bool.not_eq_true', List.isEmpty_iff] at h
          simp only [State.set, if_true, true_iff]
          exact Or.inr ⟨h.1.1.1, h.1.1.2, h.1.2, h.2⟩
        · next h =>
          simp only [Bool.and_eq_true, Bool.not_eq_true', List.isEmpty_iff] at h
          rw [h5]
          exact ⟨Or.inl, fun h' => h'.elim id fun h' => absurd ⟨⟨⟨h'.1, h'.2.1⟩, h'.2.2.1⟩, h'.2.2.2⟩ h⟩
      have h3' : (if (!inv.interactiveSet && ops.isEmpty && E.ttyIn && E.ttyErr) = true then s1.set .interactive true else s1).lineedit = s1.lineedit := by
        split <;> rfl
      generalize (if (!inv.interactiveSet && ops.isEmpty && E.ttyIn && E.ttyErr) = true then s1.set .interactive true else s1) = s2 at h3 h3' h4
      refine Or.inr (hrun ⟨.stdin, name, s2⟩ ops (.stdin' hc hs h4) ?_ ?_ ?_ ?_)
      · simp only [iff_true]
        rw [h3 _ (by decide), h1]
      · rw [h3 _ (by decide), h2 _ (by decide)]
      · exact ⟨by rw [h3 _ (by decide), h2 _ (by decide)], h3'.trans h2'⟩
      · intro v hv
        rw [h3 v (by intro h; subst h; exact hv (by decide)), h2 v (by intro h; subst h; exact hv (by decide))]
    · simp only [not_or] at hs
      obtain ⟨hs1, hs2⟩ := hs
      rcases ops with _ | ⟨path, more⟩
      · exact absurd rfl hs2
      · simp only [List.isEmpty_cons, Bool.false_eq_true, if_false, hs1]
        have hs1 : s'.val .stdin = false := by simpa using hs1
        cases ho : E.script path with
        | opened => exact Or.inr (hrun ⟨.file path, path, s'⟩ more (.file hc hs1 ho) ⟨fun h => absurd (hs1.symm.trans h) (by decide), fun h => by cases h⟩ rfl ⟨rfl, rfl⟩ (fun _ _ => rfl))
        | enoent => exact Or.inl ⟨127, .missing hc hs1 ho, rfl⟩
        | otherError => exact Or.inl ⟨126, .cannotOpen hc hs1 ho, rfl⟩

theorem parseLoop_inv {W : World} : ∀ (fuel : Nat) {inv : Option Invocation} {args rest : List Str} {s : State} {r : Shopt.Res},
    Shopt.parseLoop W fuel inv args s = some (r, rest) → r.2.1.isSome = inv.isSome
  | 0, inv, args, rest, s, r, h => by cases h
  | fuel + 1, inv, [], rest, s, r, h => by cases h; rfl
  | fuel + 1, inv, arg :: args, rest, s, r, h => by
    have main : ∀ l, (if l.isEmpty then some ((Status.success, inv, s), l) else some ((Status.success, inv, if inv.isNone then { s with params := l } else s), l)) =
        some (r, rest) → r.2.1.isSome = inv.isSome := by
      intro l h
      split at h <;> cases h <;> rfl
    have go : ∀ (enable : Bool) (c : Char) (cs : Str), (match cs with
        | [] => (fun l : List Str => if l.isEmpty then some ((Status.success, inv, s), l) else some ((Status.success, inv, if inv.isNone then { s with params := l } else s), l))
            (if enable && inv.isSome then args else arg :: args)
        | d :: ds =>
          if d = c && ds.isEmpty then some ((Status.success, inv, if inv.isNone then { s with params := if enable then args else arg :: args } else s), if enable then args else arg :: args)
          else do
            let ((st, inv, s), rest) ← Shopt.parseArg W inv enable c cs args s
            if st = .success then Shopt.parseLoop W fuel inv rest s else some ((st, inv, s), rest)) = some (r, rest) → r.2.1.isSome = inv.isSome := by
      intro enable c cs h
      split at h
      · exact main _ h
      · split at h
        · cases h; rfl
        · rename_i d ds _
          cases h1 : Shopt.parseArg W inv enable c (d :: ds) args s with
          | none => rw [h1] at h; cases h
          | some x =>
            obtain ⟨⟨st, inv1, s1⟩, rest1⟩ := x
            rw [h1] at h
            simp only [Option.bind_eq_bind, Option.bind_some] at h
            have h2 : inv1.isSome = inv.isSome := by
              unfold Shopt.parseArg at h1
              split at h1
              · exact (Shopt.parseLong_steps h1).1
              · exact (Shopt.parseShort_steps h1).1
            split at h
            · exact (parseLoop_inv fuel h).trans h2
            · cases h; exact h2
    simp only [Shopt.parseLoop] at h
    split at h
    · exact go _ _ _ h
    · exact go _ _ _ h
    · exact main _ h

/-- If there is a name, then the shell starts or exits, whatever the arguments are: nothing outside an array is read. -/
theorem startup_total {E : Env α} (hW : Shopt.Spec.Letters E.world) (s : State) (rest : α) (name : Str) (args : List Str) :
    (main E s rest (name :: args)).isSome = true := by
  have hs := Shopt.options_parsed hW (some {}) args (named s name)
  rw [Option.isSome_iff_exists] at hs
  obtain ⟨⟨⟨st, i, s'⟩, ops⟩, hp⟩ := hs
  have hi := parseLoop_inv _ hp
  cases i with
  | none => cases hi
  | some inv =>
    by_cases hst : st = .success
    · subst hst
      by_cases hv : (inv.version || inv.help) = true
      · have : main E s rest (name :: args) = some (.exit (if E.prints then 0 else 1)) := by
          show (match parseOptions E.world (some {}) args (named s name) with
            | none => none
            | some ((_, none, _), _) => none
            | some ((st, some inv, s), ops) => _) = _
          rw [hp]
          simp [hv]
        rw [this]
        rfl
      · simp only [Bool.or_eq_true, not_or, Bool.not_eq_true] at hv
        rcases startup_decided (rest := rest) hp hv.1 hv.2 with ⟨n, -, h⟩ | ⟨st, f, o, h, -⟩ <;> rw [h] <;> rfl
    · have : main E s rest (name :: args) = some (.exit (statusNumber st)) := by
        show (match parseOptions E.world (some {}) args (named s name) with
          | none => none
          | some ((_, none, _), _) => none
          | some ((st, some inv, s), ops) => _) = _
        rw [hp]
        simp [hst]
      rw [this]
      rfl

/-- The shell executes nothing if an option is wrong, or if it is asked for its version or help. -/
theorem startup_exits {E : Env α} {s s' : State} {rest : α} {name : Str} {args ops : List Str} {st : Status} {inv : Invocation}
    (hp : parseOptions E.world (some {}) args (named s name) = some ((st, some inv, s'), ops)) :
    (st = .error → main E s rest (name :: args) = some (.exit 2)) ∧
    (st = .success → inv.version = true ∨ inv.help = true → main E s rest (name :: args) = some (.exit (if E.prints then 0 else 1))) := by
  have hm : main E s rest (name :: args) = (match parseOptions E.world (some {}) args (named s name) with
    | none => none
    | some ((_, none, _), _) => none
    | some ((st, some inv, s), ops) =>
      if st ≠ .success then some (.exit (statusNumber st))
      else if inv.version || inv.help then some (.exit (if E.prints then 0 else 1))
      else
        match chooseInput E (args.length + 1) name inv s ops with
        | none => none
        | some (.inl n) => some (.exit n)
        | some (.inr (start, ops)) =>
          let opts := settle E inv start.opts ops
          (runInit E inv ⟨opts, rest⟩).map fun r => .started { start with opts } r.1 r.2) := rfl
  rw [hm, hp]
  constructor
  · rintro rfl
    simp [statusNumber]
  · rintro rfl h
    simp only [ne_eq, not_true_eq_false, if_false]
    rw [if_pos (by simpa using h)]

/-- Without any argument, not even a name, the code reads outside the array of arguments. -/
theorem startup_no_name (E : Env α) (s : State) (rest : α) (h1 : s.val .cmdline = false) (h2 : s.val .stdin = false) : main E s rest [] = none := by
  have hp : parseOptions E.world (some {}) (([] : List Str).drop 1) (named s (([] : List Str).headD [])) = some ((.success, some {}, named s []), []) := rfl
  rw [main_parsed hp rfl rfl]
  have e1 : (named s []).val .cmdline = false := by simp [named, namedSh, afterSlash, State.set, h1]
  have e2 : (named s []).val .stdin = false := by simp [named, namedSh, afterSlash, State.set, h2]
  simp [chooseInput, e1, e2]

/-! ## Forms of the command line -/

theorem parse_operands (W : World) (i : Invocation) (s : State) (ops : List Str) :
    parseOptions W (some i) ("--".toList :: ops) s = some ((.success, some i, s), ops) := rfl

theorem parse_operand (W : World) (i : Invocation) (s : State) {w : Str} (h1 : w.head? ≠ some '-') (h2 : w.head? ≠ some '+') (ops : List Str) :
    parseOptions W (some i) (w :: ops) s = some ((.success, some i, s), w :: ops) := by
  match w with
  | [] => rfl
  | c :: cs =>
    have h1 : c ≠ '-' := by simpa using h1
    have h2 : c ≠ '+' := by simpa using h2
    unfold parseOptions Shopt.parseLoop
    simp only
    split
    · next h => cases h; exact absurd rfl h1
    · next h => cases h; exact absurd rfl h2
    · rfl

theorem parse_c {W : World} (hW : Shopt.Spec.Letters W) (i : Invocation) (s : State) (rest : List Str) :
    parseOptions W (some i) ("-c".toList :: rest) s = parseOptions W (some i) rest (s.set .cmdline true) := by
  have hg := Shopt.Spec.Gives.letter (W := W) (starting := true) (posix := s.val .posixlycorrect) true (c := 'c')
    (o := ⟨some 'c', none, "cmdline".toList, .cmdline, false⟩) (by decide +kernel) rfl
  have := Shopt.parseOptions_gives (inv := some i) hW hg rest
  refine Eq.trans this ?_
  simp [Shopt.setShellOption, Shopt.startMonitor, Shopt.exclude, State.set, Invocation.note]

theorem parse_s {W : World} (hW : Shopt.Spec.Letters W) (i : Invocation) (s : State) (rest : List Str) :
    parseOptions W (some i) ("-s".toList :: rest) s = parseOptions W (some i) rest (s.set .stdin true) := by
  have hg := Shopt.Spec.Gives.letter (W := W) (starting := true) (posix := s.val .posixlycorrect) true (c := 's')
    (o := ⟨some 's', none, "stdin".toList, .stdin, false⟩) (by decide +kernel) rfl
  have := Shopt.parseOptions_gives (inv := some i) hW hg rest
  refine Eq.trans this ?_
  simp [Shopt.setShellOption, Shopt.startMonitor, Shopt.exclude, State.set, Invocation.note]

theorem parse_i {W : World} (hW : Shopt.Spec.Letters W) (i : Invocation) (s : State) (on : Bool) (rest : List Str) :
    parseOptions W (some i) ([Shopt.Spec.sign on, 'i'] :: rest) s = parseOptions W (some { i with interactiveSet := true }) rest (s.set .interactive on) := by
  have hg := Shopt.Spec.Gives.letter (W := W) (starting := true) (posix := s.val .posixlycorrect) on (c := 'i')
    (o := ⟨some 'i', none, "interactive".toList, .interactive, false⟩) (by decide +kernel) rfl
  have := Shopt.parseOptions_gives (inv := some i) hW hg rest
  refine Eq.trans this ?_
  simp [Shopt.setShellOption, Shopt.startMonitor, Shopt.exclude, State.set, Invocation.note]

/-- The options of a shell that has not yet looked at its arguments. -/
structure Fresh (s : State) : Prop where
  cmdline : s.val .cmdline = false
  stdin : s.val .stdin = false
  interactive : s.val .interactive = false

theorem named_val (s : State) (name : Str) {v : Var} (h1 : v ≠ .login) (h2 : v ≠ .posixlycorrect) : (named s name).val v = s.val v := by
  unfold named
  simp only
  split <;> simp [State.set, h1, h2]

/-- `yash -c command name argument...`, with or without `--`: the command is executed, and is not interactive. -/
theorem startup_command {E : Env α} (hW : Shopt.Spec.Letters E.world) {s : State} (hs : Fresh s) (rest : α) (name cmd n : Str) (args : List Str) {dashes : List Str}
    (hd : dashes = ["--".toList] ∨ dashes = [] ∧ cmd.head? ≠ some '-' ∧ cmd.head? ≠ some '+') :
    ∃ st files out, main E s rest (name :: "-c".toList :: (dashes ++ cmd :: n :: args)) = some (.started st files out) ∧
      st.input = .command cmd n ∧ st.name = n ∧ st.opts.params = args ∧ st.opts.val .interactive = false := by
  have hp : parseOptions E.world (some {}) ("-c".toList :: (dashes ++ cmd :: n :: args)) (named s name) =
      some ((.success, some {}, (named s name).set .cmdline true), cmd :: n :: args) := by
    rw [parse_c hW]
    rcases hd with rfl | ⟨rfl, h1, h2⟩
    · rfl
    · exact parse_operand _ _ _ h1 h2 _
  have e1 : ((named s name).set .cmdline true).val .stdin = false := by simp [State.set, named_val, hs.stdin]
  have e2 : ((named s name).set .cmdline true).val .interactive = false := by simp [State.set, named_val, hs.interactive]
  have e3 : ((named s name).set .cmdline true).val .cmdline = true := by simp [State.set]
  rcases startup_decided (rest := rest) hp rfl rfl with ⟨n, h, -⟩ | ⟨st, files, out, h, hdec, -⟩
  · cases h <;> simp_all
  · refine ⟨st, files, out, h, ?_⟩
    generalize hv1 : st.input = x1 at hdec
    generalize hv2 : st.name = x2 at hdec
    generalize hv3 : st.opts.params = x3 at hdec
    generalize hv4 : st.opts.val .interactive = x4 at hdec
    cases hdec <;> simp_all

/-- `yash file argument...`, with or without `--`: the file is executed if it can be opened. -/
theorem startup_script {E : Env α} {s : State} (hs : Fresh s) (rest : α) (name path : Str) (args : List Str) {dashes : List Str}
    (hd : dashes = ["--".toList] ∨ dashes = [] ∧ path.head? ≠ some '-' ∧ path.head? ≠ some '+') :
    (E.script path = .opened → ∃ st files out, main E s rest (name :: (dashes ++ path :: args)) = some (.started st files out) ∧
      st.input = .file path ∧ st.name = path ∧ st.opts.params = args ∧ st.opts.val .interactive = false) ∧
    (E.script path = .enoent → main E s rest (name :: (dashes ++ path :: args)) = some (.exit 127)) ∧
    (E.script path = .otherError → main E s rest (name :: (dashes ++ path :: args)) = some (.exit 126)) := by
  have hp : parseOptions E.world (some {}) (dashes ++ path :: args) (named s name) = some ((.success, some {}, named s name), path :: args) := by
    rcases hd with rfl | ⟨rfl, h1, h2⟩
    · rfl
    · exact parse_operand _ _ _ h1 h2 _
  have e1 : (named s name).val .stdin = false := by simp [named_val, hs.stdin]
  have e2 : (named s name).val .interactive = false := by simp [named_val, hs.interactive]
  have e3 : (named s name).val .cmdline = false := by simp [named_val, hs.cmdline]
  rcases startup_decided (rest := rest) hp rfl rfl with ⟨n, h, h'⟩ | ⟨st, files, out, h, hdec, -⟩
  · cases h <;> simp_all
  · generalize hv1 : st.input = x1 at hdec
    generalize hv2 : st.name = x2 at hdec
    generalize hv3 : st.opts.params = x3 at hdec
    generalize hv4 : st.opts.val .interactive = x4 at hdec
    cases hdec <;> simp_all

/-- `yash -s argument...`: the standard input is executed, and the shell is interactive only if there are no arguments and it is connected to
a terminal. -/
theorem startup_stdin {E : Env α} (hW : Shopt.Spec.Letters E.world) {s : State} (hs : Fresh s) (rest : α) (name : Str) (args : List Str) :
    ∃ st files out, main E s rest (name :: "-s".toList :: "--".toList :: args) = some (.started st files out) ∧
      st.input = .stdin ∧ st.name = name ∧ st.opts.params = args ∧ (st.opts.val .interactive = true ↔ args = [] ∧ E.ttyIn = true ∧ E.ttyErr = true) := by
  have hp : parseOptions E.world (some {}) ("-s".toList :: "--".toList :: args) (named s name) =
      some ((.success, some {}, (named s name).set .stdin true), args) := by
    rw [parse_s hW]
    rfl
  have e1 : ((named s name).set .stdin true).val .stdin = true := by simp [State.set]
  have e2 : ((named s name).set .stdin true).val .interactive = false := by simp [State.set, named_val, hs.interactive]
  have e3 : ((named s name).set .stdin true).val .cmdline = false := by simp [State.set, named_val, hs.cmdline]
  rcases startup_decided (rest := rest) hp rfl rfl with ⟨n, h, -⟩ | ⟨st, files, out, h, hdec, -⟩
  · cases h <;> simp_all
  · refine ⟨st, files, out, h, ?_⟩
    generalize hv1 : st.input = x1 at hdec
    generalize hv2 : st.name = x2 at hdec
    generalize hv3 : st.opts.params = x3 at hdec
    generalize hv4 : st.opts.val .interactive = x4 at hdec
    cases hdec <;> simp_all

/-- `yash` without arguments: the standard input is executed, and the shell is interactive if and only if it is connected to a terminal. It is a login
shell if and only if its name starts with a hyphen, and is in the POSIXly-correct mode if and only if it has been called `sh`. -/
theorem startup_alone {E : Env α} {s : State} (hs : Fresh s) (rest : α) (name : Str) :
    ∃ st files out, main E s rest [name] = some (.started st files out) ∧
      st.input = .stdin ∧ st.name = name ∧ st.opts.params = [] ∧ (st.opts.val .interactive = true ↔ E.ttyIn = true ∧ E.ttyErr = true) ∧
      (st.opts.val .login = true ↔ ∃ n, name = '-' :: n) ∧ (s.val .posixlycorrect = false → (st.opts.val .posixlycorrect = true ↔ CalledSh name)) := by
  have hp : parseOptions E.world (some {}) [] (named s name) = some ((.success, some {}, named s name), []) := rfl
  have e1 : (named s name).val .stdin = false := by simp [named_val, hs.stdin]
  have e2 : (named s name).val .interactive = false := by simp [named_val, hs.interactive]
  have e3 : (named s name).val .cmdline = false := by simp [named_val, hs.cmdline]
  rcases startup_decided (rest := rest) hp rfl rfl with ⟨n, h, -⟩ | ⟨st, files, out, h, hdec, -, -, -, hk⟩
  · cases h <;> simp_all
  · refine ⟨st, files, out, h, ?_⟩
    have hl : st.opts.val .login = true ↔ ∃ n, name = '-' :: n := by
      rw [hk .login (by decide)]
      have : (named s name).val .login = decide (name.head? = some '-') := by
        unfold named
        simp only
        split <;> simp [State.set]
      rw [this, decide_eq_true_eq]
      cases name <;> simp
    have hx : s.val .posixlycorrect = false → (st.opts.val .posixlycorrect = true ↔ CalledSh name) := by
      intro hpc
      rw [hk .posixlycorrect (by decide), ← startup_name]
      unfold named
      simp only
      split <;> simp_all [State.set]
    rw [and_congr_right_iff.2 (fun _ => and_congr_right_iff.2 fun _ => and_congr_right_iff.2 fun _ => and_iff_left ⟨hl, hx⟩)]
    generalize hv1 : st.input = x1 at hdec
    generalize hv2 : st.name = x2 at hdec
    generalize hv3 : st.opts.params = x3 at hdec
    generalize hv4 : st.opts.val .interactive = x4 at hdec
    cases hdec <;> simp_all

/-- `-i` and `+i` decide on whether the shell is interactive, whatever it is connected to. -/
theorem startup_interactive {E : Env α} (hW : Shopt.Spec.Letters E.world) {s : State} (hs : Fresh s) (rest : α) (name : Str) (on : Bool) :
    ∃ st files out, main E s rest [name, [Shopt.Spec.sign on, 'i']] = some (.started st files out) ∧ st.input = .stdin ∧ st.opts.val .interactive = on := by
  have hp : parseOptions E.world (some {}) [[Shopt.Spec.sign on, 'i']] (named s name) =
      some ((.success, some { interactiveSet := true }, (named s name).set .interactive on), []) := by
    rw [parse_i hW]
    rfl
  have e1 : ((named s name).set .interactive on).val .stdin = false := by simp [State.set, named_val, hs.stdin]
  have e2 : ((named s name).set .interactive on).val .interactive = on := by simp [State.set]
  have e3 : ((named s name).set .interactive on).val .cmdline = false := by simp [State.set, named_val, hs.cmdline]
  rcases startup_decided (rest := rest) hp rfl rfl with ⟨n, h, -⟩ | ⟨st, files, out, h, hdec, -⟩
  · cases h <;> simp_all
  · refine ⟨st, files, out, h, ?_⟩
    generalize hv1 : st.input = x1 at hdec
    generalize hv2 : st.name = x2 at hdec
    generalize hv3 : st.opts.params = x3 at hdec
    generalize hv4 : st.opts.val .interactive = x4 at hdec
    cases hdec <;> simp_all

end Yash.Startup
