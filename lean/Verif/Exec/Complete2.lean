import Verif.Exec.Complete
/-!
# The functions do all that the semantics says: commands
-/
set_option autoImplicit false

namespace Yash.Exec
open Yash.Syntax Spec

variable {σ ω ρ ι : Type} {E : Shell σ ω ρ ι}

/-! ## Redirections and simple commands -/

theorem exec_compound {x : Command} (hx : ∀ r a w, x ≠ .simple r a w) (fe : Bool) (S : St σ) :
    exec E (.one x fe) S =
      match E.redirect (redirections x) S.status S.sh with
      | (sh, saved, true) =>
        (exec E (.nonsimple x (fe && E.nothingSaved saved)) { S with sh := sh }).andThen fun s =>
        fin E fe { s with sh := E.undo saved s.sh }
      | (sh, saved, false) =>
        (applyErr E true { S with status := Exit_REDIRERR, sh := E.undo saved sh }).andThen (fin E fe) := by
  rw [exec_one, ← redirsOf_eq]
  cases x <;> first | rfl | exact absurd rfl (hx _ _ _)

theorem does_compound (hE : Lawful E) {x : Command} {S : St σ} {s' : σ} {saved : ρ} {o : Out σ ω} {fe : Bool} (hs : Start S)
    (hx : ∀ r a w, x ≠ .simple r a w) (he : E.redirect (redirections x) S.status S.sh = (s', saved, true))
    (h : Does E (ctxOf S) (.body x) S.status s' o) :
    Rel E fe S (exec E (.one x fe) S) (o.after fun _ => E.undo saved) := by
  rw [exec_compound hx, he]
  simp only
  have hr := (h { S with sh := s' } (fe && E.nothingSaved saved) hs rfl rfl rfl).with_sh
  exact hr.after (f := fun _ => E.undo saved) (g := fun t => { t with sh := E.undo saved t.sh })
    (by simp; exact fun h _ => h) (fun _ _ => hE.undo _ _) (fun _ => rfl)

theorem does_compound_redir {x : Command} {S : St σ} {s' : σ} {saved : ρ} {fe : Bool} (hs : Start S)
    (hx : ∀ r a w, x ≠ .simple r a w) (he : E.redirect (redirections x) S.status S.sh = (s', saved, false)) :
    Rel E fe S (exec E (.one x fe) S) (checked E (ctxOf S) .normal 2 (E.undo saved s')) := by
  rw [exec_compound hx, he]
  exact (applyErr_checked (sig := .normal) (s := S) (t := { S with status := Exit_REDIRERR, sh := E.undo saved s' })
    ⟨rfl, rfl, rfl, rfl⟩ hs).fin

/-- For simple commands it is enough to look at `exec_simple_command`. -/
theorem does_simple {r : List Redir} {a : List Assign} {w : List Word} {S : St σ} {fe : Bool} {o : Out σ ω}
    (h : Rel E fe S (simple E (exec E) r a w fe S) o) : Rel E fe S (exec E (.one (.simple r a w) fe) S) o := by
  rw [exec_one]
  simp only [one]
  rw [exec_simple]
  exact h.fin'

theorem simple_bare {r : List Redir} {a : List Assign} {w : List Word} {S : St σ} {fe : Bool} {s' : σ}
    (he : E.expandLine w S.status (E.resetSubst S.sh) = (s', some [])) :
    simple E (exec E) r a w fe S = withoutWords E r a fe { S with sh := s' } := by
  unfold simple; rw [he]

theorem simple_words {r : List Redir} {a : List Assign} {w : List Word} {S : St σ} {fe : Bool} {s' : σ} {name : Str}
    {args : List Str} (he : E.expandLine w S.status (E.resetSubst S.sh) = (s', some (name :: args))) :
    simple E (exec E) r a w fe S = withWords E (exec E) r a name (name :: args) fe { S with sh := s' } := by
  unfold simple; rw [he]

theorem withWords_eq (r : List Redir) (a : List Assign) (name : Str) (args : List Str) (fe : Bool) (S : St σ) :
    withWords E (exec E) r a name (name :: args) fe S =
      match E.redirect r S.status S.sh with
      | (sh, saved, false) =>
        fin E (fe || (E.posix sh && !E.interactive sh && E.isSpecial name))
          { S with status := Exit_REDIRERR, sh := E.undo saved sh }
      | (sh, saved, true) =>
        match E.assign a (!a.isEmpty && !(E.lookup name sh).isSpecial) true S.status
            (if (!a.isEmpty && !(E.lookup name sh).isSpecial) then E.openTemp sh else sh) with
        | (sh', false) =>
          fin E (fe || !E.interactive sh')
            (cleanup E saved (!a.isEmpty && !(E.lookup name sh).isSpecial) { S with status := Exit_ASSGNERR, sh := sh' })
        | (sh', true) =>
          match resolve E name (name :: args) (E.lookup name sh) { S with sh := sh' } with
          | (t, none) => fin E fe (cleanup E saved (!a.isEmpty && !(E.lookup name sh).isSpecial) t)
          | (t, some k) =>
            (exec E (.invoke k (name :: args) (fe && E.nothingSaved saved)) t).andThen fun s =>
              fin E fe (afterInvoke E saved (!a.isEmpty && !(E.lookup name sh).isSpecial) s) := rfl

theorem temp_eq {a : List Assign} {k : Kind} {temp : Bool} (h : temp = true ↔ a ≠ [] ∧ k ≠ .special) :
    (!a.isEmpty && !k.isSpecial) = temp := by
  have e : (!a.isEmpty && !k.isSpecial) = true ↔ a ≠ [] ∧ k ≠ .special := by
    rw [Bool.and_eq_true, Bool.not_eq_true', Bool.not_eq_true', ← Bool.not_eq_true, ← Bool.not_eq_true, isSpecial_iff]
    simp
  rw [Bool.eq_iff_iff, e, h]

theorem resolve_unique {name : Str} {argv : List Str} {k : Kind} {S : St σ} {st' : Nat} {u : σ} {r : Option Kind}
    (h : Resolves E name argv S.status S.sh k st' u r) : resolve E name argv k S = ({ S with status := st', sh := u }, r) := by
  cases h with
  | found _ hk =>
    unfold resolve
    split
    · exact absurd rfl hk
    · rfl
  | program k' hl hk =>
    subst hl
    simp only [resolve]
    rw [findProgram_found argv hk]
  | posix hl hp =>
    simp only [resolve, findProgram, hl, hp, if_true, contains_slash]
  | handled _ _ hl hp hn =>
    simp only [resolve, findProgram, hl, hp, Bool.false_eq_true, if_false, hn]
  | unhandled _ hl hp hn =>
    simp only [resolve, findProgram, hl, hp, Bool.false_eq_true, if_false, hn, contains_slash]

theorem does_bare_error {r : List Redir} {a : List Assign} {S : St σ} {fe : Bool} {s' s'' : σ} (hs : Start S)
    (ha : E.assign a false false S.status s' = (s'', false)) :
    Rel E fe S (withoutWords E r a fe { S with sh := s' }) (shellError E s'') := by
  have e : (withoutWords E r a fe { S with sh := s' } : Res σ ω) =
      match E.assign a false false S.status s' with
      | (sh, false) => fin E (fe || !E.interactive sh) { S with status := Exit_ASSGNERR, sh := sh }
      | (sh, true) =>
        if r.isEmpty then fin E fe { S with status := E.substStatus sh, sh := sh }
        else
          match E.redirect r S.status (E.enter sh) with
          | (ch, saved, ok) =>
            fin E fe { S with status := (if ok then E.substStatus (E.undo saved ch) else Exit_REDIRERR) % 256,
                              sh := E.join sh (E.final (E.undo saved ch)) } := rfl
  rw [e, ha]
  simp only
  cases hi : E.interactive s''
  · rw [fin_or_exit (by simp)]
    simp only [shellError, hi]
    exact Rel.exit _ _
  · rw [fin_or (by simp)]
    simp only [shellError, hi, if_true]
    exact rel_fin (t := { S with status := Exit_ASSGNERR, sh := s'' }) ⟨rfl, rfl, rfl, rfl⟩ hs

theorem does_bare_redir {r : List Redir} {a : List Assign} {S : St σ} {fe : Bool} {s' s'' t : σ} {saved : ρ} {ok : Bool}
    (hs : Start S) (ha : E.assign a false false S.status s' = (s'', true)) (hr : r ≠ [])
    (he : E.redirect r S.status (E.enter s'') = (t, saved, ok)) :
    Rel E fe S (withoutWords E r a fe { S with sh := s' })
      (.done .normal ((if ok then E.substStatus (E.undo saved t) else 2) % 256) (E.join s'' (E.final (E.undo saved t)))) := by
  have e : (withoutWords E r a fe { S with sh := s' } : Res σ ω) =
      match E.assign a false false S.status s' with
      | (sh, false) => fin E (fe || !E.interactive sh) { S with status := Exit_ASSGNERR, sh := sh }
      | (sh, true) =>
        if r.isEmpty then fin E fe { S with status := E.substStatus sh, sh := sh }
        else
          match E.redirect r S.status (E.enter sh) with
          | (ch, saved, ok) =>
            fin E fe { S with status := (if ok then E.substStatus (E.undo saved ch) else Exit_REDIRERR) % 256,
                              sh := E.join sh (E.final (E.undo saved ch)) } := rfl
  rw [e, ha]
  simp only
  rw [if_neg (by simpa using hr)]
  have e1 : t = (E.redirect r S.status (E.enter s'')).1 := by rw [he]
  have e2 : saved = (E.redirect r S.status (E.enter s'')).2.1 := by rw [he]
  have e3 : ok = (E.redirect r S.status (E.enter s'')).2.2 := by rw [he]
  subst e1 e2 e3
  exact rel_fin (E := E) (fe := fe) (sig := .normal) (s := S) (t := { S with
    status := (if (E.redirect r S.status (E.enter s'')).2.2 then E.substStatus (E.undo (E.redirect r S.status (E.enter s'')).2.1
        (E.redirect r S.status (E.enter s'')).1) else Exit_REDIRERR) % 256
    sh := E.join s'' (E.final (E.undo (E.redirect r S.status (E.enter s'')).2.1
        (E.redirect r S.status (E.enter s'')).1)) }) ⟨rfl, rfl, rfl, rfl⟩ hs

theorem does_redir_fail {r : List Redir} {a : List Assign} {S : St σ} {fe : Bool} {s'' : σ} {name : Str} {args : List Str}
    {saved : ρ} (hs : Start S) (hr : E.redirect r S.status S.sh = (s'', saved, false)) :
    Rel E fe S (withWords E (exec E) r a name (name :: args) fe S)
      (if E.posix s'' = true ∧ E.interactive s'' = false ∧ E.isSpecial name = true then .exit 2 (E.final (E.undo saved s''))
        else .done .normal 2 (E.undo saved s'')) := by
  rw [withWords_eq, hr]
  simp only
  cases hf : (E.posix s'' && !E.interactive s'' && E.isSpecial name)
  · rw [fin_or rfl, if_neg (by intro hh; simp [hh] at hf)]
    exact rel_fin (t := { S with status := Exit_REDIRERR, sh := E.undo saved s'' }) ⟨rfl, rfl, rfl, rfl⟩ hs
  · rw [fin_or_exit rfl]
    simp only [Bool.and_eq_true, Bool.not_eq_true'] at hf
    rw [if_pos ⟨hf.1.1, hf.1.2, hf.2⟩]
    exact Rel.exit _ _

theorem does_assign_fail {r : List Redir} {a : List Assign} {S : St σ} {fe : Bool} {s'' t : σ} {name : Str} {args : List Str}
    {saved : ρ} {temp : Bool} (hs : Start S) (hr : E.redirect r S.status S.sh = (s'', saved, true))
    (ht : temp = true ↔ a ≠ [] ∧ E.lookup name s'' ≠ .special)
    (ha : E.assign a temp true S.status (if temp then E.openTemp s'' else s'') = (t, false)) :
    Rel E fe S (withWords E (exec E) r a name (name :: args) fe S)
      (if E.interactive t = true then .done .normal 2 (E.undo saved (closeTemp E (temp = true) t))
        else .exit 2 (E.final (E.undo saved (closeTemp E (temp = true) t)))) := by
  rw [withWords_eq, hr]
  simp only
  rw [temp_eq ht, ha]
  simp only
  cases hi : E.interactive t
  · rw [fin_or_exit (by simp), if_neg (by simp)]
    exact Rel.exit _ _
  · rw [fin_or (by simp), if_pos rfl]
    exact rel_fin (t := cleanup E saved temp { S with status := Exit_ASSGNERR, sh := t }) ⟨rfl, rfl, rfl, rfl⟩ hs

theorem does_handled {r : List Redir} {a : List Assign} {S : St σ} {fe : Bool} {s'' t u : σ} {name : Str} {args : List Str}
    {saved : ρ} {temp : Bool} {st' : Nat} (hs : Start S) (hr : E.redirect r S.status S.sh = (s'', saved, true))
    (ht : temp = true ↔ a ≠ [] ∧ E.lookup name s'' ≠ .special)
    (ha : E.assign a temp true S.status (if temp then E.openTemp s'' else s'') = (t, true))
    (hres : Resolves E name (name :: args) S.status t (E.lookup name s'') st' u none) :
    Rel E fe S (withWords E (exec E) r a name (name :: args) fe S)
      (.done .normal st' (E.undo saved (closeTemp E (temp = true) u))) := by
  rw [withWords_eq, hr]
  simp only
  rw [temp_eq ht, ha]
  simp only
  rw [resolve_unique (S := { S with sh := t }) hres]
  exact rel_fin (t := cleanup E saved temp { S with status := st', sh := u }) ⟨rfl, rfl, rfl, rfl⟩ hs

theorem does_found (hE : Lawful E) {r : List Redir} {a : List Assign} {S : St σ} {fe : Bool} {s'' t u : σ} {name : Str}
    {args : List Str} {saved : ρ} {temp : Bool} {st' : Nat} {k : Kind} {o : Out σ ω} (hs : Start S)
    (hr : E.redirect r S.status S.sh = (s'', saved, true)) (ht : temp = true ↔ a ≠ [] ∧ E.lookup name s'' ≠ .special)
    (ha : E.assign a temp true S.status (if temp then E.openTemp s'' else s'') = (t, true))
    (hres : Resolves E name (name :: args) S.status t (E.lookup name s'') st' u (some k))
    (h : Does E (ctxOf S) (.run k (name :: args)) st' u o) :
    Rel E fe S (withWords E (exec E) r a name (name :: args) fe S) (o.after (restore E saved (temp = true))) := by
  rw [withWords_eq, hr]
  simp only
  rw [temp_eq ht, ha]
  simp only
  rw [resolve_unique (S := { S with sh := t }) hres]
  simp only
  have hro := h { S with status := st', sh := u } (fe && E.nothingSaved saved) hs rfl rfl rfl
  have hro := Rel.same (s := S) (t := { S with status := st', sh := u }) ⟨rfl, rfl, rfl, rfl⟩ hro
  refine hro.after (g := afterInvoke E saved temp) (by simp; exact fun h _ => h) ?_ ?_
  · intro st u
    unfold restore closeTemp
    split <;> split <;> simp [hE.undo, hE.keep, hE.close, hE.reset]
  · intro u
    unfold afterInvoke restore closeTemp
    cases hx : E.execRun u.sh <;> cases hy : (u.status == Exit_SUCCESS)
    · simp
    · simp
    · simp [Exit_SUCCESS] at hy; simp [hy]
    · simp [Exit_SUCCESS] at hy; simp [hy]

/-! ## Built-ins and functions -/

theorem does_builtin {k : Kind} (hk : k = .special ∨ k = .builtin) {argv : List Str} {S : St σ} {fe : Bool} {o : Out σ ω}
    (h : Rel E false S (callBuiltin E (exec E) argv S) o) : Rel E fe S (exec E (.invoke k argv fe) S) o := by
  rw [exec_invoke]
  rcases hk with rfl | rfl
  · exact h.fin
  · exact h.fin

/-- What is done for a built-in. -/
noncomputable def actRun (E : Shell σ ω ρ ι) (act : Act ι) (S : St σ) : Res σ ω :=
  match act with
  | .done st => .ok { S with status := st }
  | .brk n => breakBuiltin E false n S
  | .cont n => breakBuiltin E true n S
  | .ret st => returnBuiltin E st S
  | .exit st => exitWith E st S
  | .eval code => exec E (.parse code false false) S
  | .dot code args => dotBuiltin E (exec E) code args S
  | .run k argv => exec E (.invoke k argv false) S

theorem callBuiltin_eq {argv : List Str} {S : St σ} {s' : σ} {act : Act ι} (he : E.builtin argv S.status S.sh = (s', act)) :
    callBuiltin E (exec E) argv S = actRun E act { S with sh := s' } := by
  unfold callBuiltin; rw [he]; rfl

/-- The state in which a script with these arguments is executed. -/
def argSh (E : Shell σ ω ρ ι) (args : Option (List Str)) (s : σ) : σ :=
  match args with
  | some a => E.openEnv a s
  | none => s

/-- The outcome of a call. -/
def callOut (f : σ → σ) : Out σ ω → Out σ ω
  | .done _ st s => .done .normal st (f s)
  | .exit st w => .exit st w

theorem does_dot {code : ι} {args : Option (List Str)} {S : St σ} {s' : σ} {o : Out σ ω} (hs : Start S)
    (h : Does E (ctxOf S).fresh (.script code false) S.status
      (argSh E args s') o) :
    Rel E false S (dotBuiltin E (exec E) code args { S with sh := s' })
      (callOut (fun s => if args.isSome then E.closeEnv s else s) o) := by
  have h := h { S with loopnest := 0, breakloopnest := 0, noreturn := false, ser := false,
                       sh := argSh E args s' } false ⟨hs.1, Nat.zero_le _⟩ rfl rfl rfl
  have e : dotBuiltin E (exec E) code args { S with sh := s' } =
      (exec E (.parse code false false)
        { S with loopnest := 0, breakloopnest := 0, noreturn := false, ser := false,
                 sh := argSh E args s' }).andThen fun s1 =>
      .ok { s1 with
        exc := if s1.exc = .ret then .none else s1.exc
        ser := S.ser
        loopnest := S.loopnest
        breakloopnest := S.breakloopnest
        noreturn := S.noreturn
        sh := if args.isSome then E.closeEnv s1.sh else s1.sh } := rfl
  rw [e]
  rcases h.cases_false with ⟨st, w, hre, rfl⟩ | ⟨t, sig, hre, rfl, hsm, hp⟩
  · rw [hre]; exact Rel.exit _ _
  · rw [hre]
    have hexc : (if t.exc = .ret then Exc.none else t.exc) = .none := by
      rcases pend_top hp hsm.1 with rfl | rfl
      · rw [hp.1]; rfl
      · rw [hp.1]; rfl
    exact ⟨rfl, ⟨rfl, rfl, hsm.3, rfl⟩, ⟨hexc, hs.2⟩, rfl, rfl⟩

theorem does_call (hE : Lawful E) {x : Command} {args : List Str} {S : St σ} {fe : Bool} {o : Out σ ω} (hs : Start S)
    (h : Does E (ctxOf S).fresh (.cmds [x]) S.status (E.openEnv args S.sh) o) :
    Rel E fe S (exec E (.func x args fe) S)
      (callOut E.closeEnv o) := by
  have h := h { S with loopnest := 0, breakloopnest := 0, noreturn := false, ser := false, sh := E.openEnv args S.sh } fe
    ⟨hs.1, Nat.zero_le _⟩ rfl rfl rfl
  rw [exec_func]
  unfold funcBody
  cases fe
  · rcases h.cases_false with ⟨st, w, hre, rfl⟩ | ⟨t, sig, hre, rfl, hsm, hp⟩
    · rw [hre]; exact Rel.exit _ _
    · rw [hre]
      have hexc : (if t.exc = .ret then Exc.none else t.exc) = .none := by
        rcases pend_top hp hsm.1 with rfl | rfl
        · rw [hp.1]; rfl
        · rw [hp.1]; rfl
      exact ⟨rfl, ⟨rfl, rfl, hsm.3, rfl⟩, ⟨hexc, hs.2⟩, rfl, rfl⟩
  · obtain ⟨st, w, hre, hf⟩ := h.cases_true
    rw [hre]
    cases o with
    | done sig st' sh => simpa [Rel, Res.andThen, Out.finish, callOut, hE.close] using hf
    | exit st' w' => simpa [Rel, Res.andThen, callOut] using hf

end Yash.Exec
