import Verif.Exec.Errexit
/-!
# Properties of the execution of commands (C47, C48, C49, C50)
-/
set_option autoImplicit false

namespace Yash.Exec
open Yash.Syntax Spec

variable {σ ω ρ ι : Type} {E : Shell σ ω ρ ι}

/-! ## A shell to try things with -/

namespace Demo

/-- Literal text of a word. -/
def text (w : Word) : Str :=
  match w with
  | [.str s] => s
  | _ => []

/-- What has been written, whether `errexit` is on, the functions, and the positional parameters. -/
structure State where
  log : List Str := []
  errexit : Bool := false
  args : List (List Str) := []
  funcs : List (Str × Command) := []

/-- The built-ins. -/
def builtins (argv : List Str) (st : Nat) (s : State) : State × Act (List (List AndOr)) :=
  match argv with
  | [a] =>
    if a = "break".toList then (s, .brk 1)
    else if a = "continue".toList then (s, .cont 1)
    else if a = "return".toList then (s, .ret st)
    else if a = "exit".toList then (s, .exit st)
    else if a = "set".toList then ({ s with errexit := true }, .done 0)
    else if a = "false".toList then (s, .done 1)
    else (s, .done 0)
  | [a, b] => if a = "return".toList then (s, .ret b.length) else ({ s with log := s.log ++ [b] }, .done 0)
  | _ => (s, .done 0)

/-- Input consists of lists of commands. -/
def read (inp : List (List AndOr)) (s : State) : State × Parsed (List (List AndOr)) :=
  match inp with
  | [] => (s, .eof)
  | l :: rest => (s, .ok l rest rest.isEmpty)

/-- Words are literal, `echo` writes its operands, `set` turns on `errexit`. -/
def shell : Shell State (List Str) Unit (List (List AndOr)) where
  final s := s.log
  join s w := { s with log := w }
  expandLine ws _ s := (s, some (ws.map text))
  expandOne w _ s := (s, some (text w))
  matchOne x w _ s := (s, some (x == text w))
  assign _ _ _ _ s := (s, true)
  redirect _ _ s := (s, (), true)
  nothingSaved _ := true
  undo _ s := s
  keep _ s := s
  resetSubst s := s
  substStatus _ := 0
  lookup n s :=
    if ["break", "continue", "return", "exit", "set"].map (·.toList) |>.contains n then .special
    else match s.funcs.find? (·.1 == n) with
      | some f => .function f.2
      | none => if n == "echo".toList || n == "false".toList then .builtin else .none
  lookupProgram _ _ := .none
  isSpecial _ := false
  notFound _ _ s := (s, none)
  external _ _ s := (0, s.log)
  builtin := builtins
  execRun _ := false
  resetExec s := s
  fatal _ := false
  openTemp s := s
  openEnv a s := { s with args := a :: s.args }
  closeEnv s := { s with args := s.args.tail }
  enter s := s
  enterPipe _ _ s := s
  pipeWorld _ ws := ws.flatten
  async _ _ s := (s, 0)
  positional s := s.args.headD []
  setVar _ _ s := (s, true)
  bracket _ _ s := (s, 0)
  define n c s := ({ s with funcs := (n, c) :: s.funcs }, true)
  parse := read
  posix _ := true
  interactive _ := false
  jobControl _ := false
  anyTrap _ := false
  pipefail _ := false
  errexit s := s.errexit
  errreturn _ := false
  executes _ := true
  syntaxErrorExits _ := true

theorem lawful : Lawful shell where
  join _ _ := rfl
  undo _ _ := rfl
  keep _ _ := rfl
  close _ := rfl
  reset _ := rfl
  eof inp s s' l rest h t := by
    change read inp s = _ at h
    cases inp with
    | nil => simp [read] at h
    | cons x xs =>
      simp only [read, Prod.mk.injEq, Parsed.ok.injEq] at h
      obtain ⟨_, _, h1, h2⟩ := h
      rw [← h1, List.isEmpty_iff.1 h2]
      exact ⟨t, rfl, rfl⟩
  brk argv st s s' h := by
    change builtins argv st s = _ at h
    unfold builtins at h
    repeat' split at h
    all_goals cases h
  cont argv st s s' h := by
    change builtins argv st s = _ at h
    unfold builtins at h
    repeat' split at h
    all_goals cases h

/-- A simple command. -/
def cmd (ws : List String) : Command := .simple [] [] (ws.map fun w => [.str w.toList])

/-- A list of one command. -/
def one (c : Command) : AndOr := .mk [.mk [c] false true] false

/-- `a && b` -/
def both (a b : Command) : AndOr := .mk [.mk [a] false true, .mk [b] false true] false

/-- `if return 3; then :; fi` (the status of `return` is the length of its operand). -/
def badIf : Command := .ifs [] [.cond [one (cmd ["return", "xxx"])] [one (cmd ["echo", "no"])]]

/-- `for i in a b c; do echo x; break; echo y; done` -/
def loop : Command :=
  .fors [] "i".toList (some [[.str ['a']], [.str ['b']], [.str ['c']]])
    [one (cmd ["echo", "x"]), one (cmd ["break"]), one (cmd ["echo", "y"])]

end Demo

/-! ## Control flow -/

/-- C47: a shell process that executes a script ends with a status and leaves something behind if and only if the
structured semantics says so; in particular it goes on for ever if and only if the semantics has no outcome.  Not proved: that
the status of `return` in the condition of the last clause of an `if` command is kept; it is not, see `C47_if_return`. -/
theorem C47_script_partial (hE : Lawful E) (inp : ι) (s : σ) (x : Nat) (w : ω) :
    (∃ n st, run E n (.parse inp false true) { sh := s } = .exit st w ∧ st % 256 = x) ↔
      ∃ o, Sem E (fun _ => 0) {} (.script inp false) 0 s o ∧ o.finish E = (x, w) := by
  have hs : Start ({ sh := s } : St σ) := ⟨rfl, Nat.le_refl _⟩
  constructor
  · rintro ⟨n, st, hr, rfl⟩
    obtain ⟨o, ho, hrel⟩ := (sound hE n).parse inp false true _ hs (by rw [hr]; simp)
    rw [hr] at hrel
    exact ⟨o, ho, by simpa [Rel] using hrel⟩
  · rintro ⟨o, ho, hf⟩
    obtain ⟨st, w', hr, hf'⟩ := (complete hE ho { sh := s } true hs rfl rfl rfl).cases_true
    obtain ⟨n, hn⟩ := (exec_eq (by simp)).1 hr
    rw [hf] at hf'
    cases hf'
    exact ⟨n, st, hn, rfl⟩

/-- C47: the same for the documented semantics, in which the status of `return` is kept, if `return` is only used with zero. -/
theorem C47_documented_partial (hE : Lawful E) (hret : ReturnsZero E) (inp : ι) (s : σ) (x : Nat) (w : ω) :
    (∃ n st, run E n (.parse inp false true) { sh := s } = .exit st w ∧ st % 256 = x) ↔
      ∃ o, Sem E id {} (.script inp false) 0 s o ∧ o.finish E = (x, w) := by
  rw [C47_script_partial hE]
  exact ⟨fun ⟨o, h, e⟩ => ⟨o, sem_change hret _ _ h, e⟩, fun ⟨o, h, e⟩ => ⟨o, sem_change hret _ _ h, e⟩⟩

/-- C47: commands in the middle of a script, anywhere and with any flags: the way they end, the status and the state. -/
theorem C47_commands_partial (hE : Lawful E) (l : List AndOr) (S : St σ) (hs : Start S) (sig : Sig) (st : Nat) (s : σ) :
    (∃ n t, run E n (.lists l false) S = .ok t ∧ Pend t sig ∧ t.status = st ∧ t.sh = s) ↔
      Sem E (fun _ => 0) (ctxOf S) (.list l) S.status S.sh (.done sig st s) := by
  constructor
  · rintro ⟨n, t, hr, hp, rfl, rfl⟩
    obtain ⟨o, ho, hrel⟩ := (sound hE n).lists l false S hs (by rw [hr]; simp)
    rw [hr] at hrel
    rcases hrel.cases_false with ⟨_, _, e, _⟩ | ⟨u, sig', e, e', hsm, hp'⟩
    · cases e
    · cases e
      rw [e', pend_unique hp' hp] at ho
      exact ho
  · intro h
    obtain ⟨t, hr, he⟩ := (complete hE h S false hs rfl rfl rfl).of_done
    obtain ⟨n, hn⟩ := (exec_eq (by simp)).1 hr
    exact ⟨n, t, hn, he.pend, he.status, he.state⟩

/-- C47: and the commands that end the shell. -/
theorem C47_exit_partial (hE : Lawful E) (l : List AndOr) (S : St σ) (hs : Start S) (st : Nat) (w : ω) :
    (∃ n, run E n (.lists l false) S = .exit st w) ↔
      Sem E (fun _ => 0) (ctxOf S) (.list l) S.status S.sh (.exit st w) := by
  constructor
  · rintro ⟨n, hr⟩
    obtain ⟨o, ho, hrel⟩ := (sound hE n).lists l false S hs (by rw [hr]; simp)
    rw [hr] at hrel
    have : o = .exit st w := by simpa [Rel] using hrel
    rw [this] at ho
    exact ho
  · intro h
    exact (exec_eq (by simp)).1 (complete hE h S false hs rfl rfl rfl).of_exit

/-- C47: the outcome of a list of commands is determined. -/
theorem C47_deterministic (hE : Lawful E) (c : Ctx) (l : List AndOr) (st : Nat) (s : σ) (o o' : Out σ ω)
    (h : Sem E (fun _ => 0) c (.list l) st s o) (h' : Sem E (fun _ => 0) c (.list l) st s o') : o = o' := by
  let S : St σ :=
    { status := st, loopnest := c.loops, breakloopnest := c.loops, noreturn := c.noReturn, see := c.ignoreExit, ser := c.ignoreReturn,
      sh := s }
  have hs : Start S := ⟨rfl, Nat.le_refl _⟩
  have r := complete hE h S false hs rfl rfl rfl
  have r' := complete hE h' S false hs rfl rfl rfl
  rcases r.cases_false with ⟨st, w, e, rfl⟩ | ⟨t, sig, e, rfl, _, hp⟩
  · rw [e] at r'
    exact (by simpa [Rel] using r' : o' = _).symm
  · rw [e] at r'
    rcases r'.cases_false with ⟨_, _, e, _⟩ | ⟨t', sig', e, rfl, _, hp'⟩
    · cases e
    · cases e
      rw [pend_unique hp hp']

/-- C47 fails for `return` in a condition: `f() { if return 3; then :; fi; }; f` has the status 0, not 3. -/
theorem C47_if_return :
    ∃ (c : Command) (s : Demo.State),
      Sem Demo.shell id {} (.call c []) 0 s (.done .normal 3 s) ∧
      ∃ n t, run Demo.shell n (.func c [] false) { sh := s } = .ok t ∧ t.status = 0 := by
  refine ⟨Demo.badIf, {}, ?_, 20, { sh := {} }, rfl, rfl⟩
  have h : Sem Demo.shell id { ignoreExit := true, ignoreReturn := true } (.cmds [Demo.cmd ["return", "xxx"]]) 0
      ({ args := [[]] } : Demo.State) (.done .ret 3 { args := [[]] }) := by
    refine .cmds_basic _ (Demo.cmd ["return", "xxx"]) _ _ (.done .ret 3 ({ args := [[]] } : Demo.State)) trivial ?_
    let s : Demo.State := { args := [[]] }
    exact Sem.simple (E := Demo.shell) (q := id) _ [] [] _ 0 0 s s s s s "return".toList ["xxx".toList] () false .special
      (.done .ret 3 s) rfl rfl (by simp) rfl (.found _ (fun h => by cases h))
      (.return_ _ _ _ _ _ _ _ (.inl rfl) rfl (by simp))
  refine Sem.call {} Demo.badIf [] .ret 0 3 ({} : Demo.State) ({ args := [[]] } : Demo.State) ?_
  refine .cmds_compound _ _ _ _ _ (fun h => h) ?_
  refine Sem.compound (E := Demo.shell) _ Demo.badIf _ _ _ () (.done .ret 3 ({ args := [[]] } : Demo.State))
    (fun r a w h => by cases h) rfl ?_
  refine .if_ _ _ _ _ _ _ ?_
  refine Sem.ifs_signal _ _ _ [] .ret 0 3 _ ({ args := [[]] } : Demo.State) ?_ (by simp)
  exact .list_stop _ _ _ _ _ _ (.item_sync _ _ _ _ _ (.chain_last _ _ _ _ _ (.pipeline _ _ _ _ _ _ h))) (by simp [Out.goesOn])

/-- The hypotheses can be met, and the semantics is about commands that do something: in the loop, `echo` writes `x` once. -/
example : Lawful Demo.shell ∧ run Demo.shell 20 (.parse [[Demo.one Demo.loop]] false true) { sh := {} } = .exit 0 ["x".toList] :=
  ⟨Demo.lawful, rfl⟩

example : ∃ o, Sem Demo.shell (fun _ => 0) {} (.script [[Demo.one Demo.loop]] false) 0 {} o ∧
    o.finish Demo.shell = (0, ["x".toList]) :=
  (C47_script_partial Demo.lawful _ _ _ _).1 ⟨20, 0, rfl, rfl⟩

example : ReturnsZero { Demo.shell with builtin := fun argv st s =>
    if argv = ["return".toList] then (s, .ret 0) else if argv = ["break".toList] then (s, .brk 1) else (s, .done st) } := by
  intro argv st s s' st' h
  simp only at h
  split at h
  · simp at h; exact h.2.symm
  · split at h <;> simp at h

/-! ## The end of the process in the last command -/

/-- C48: that the shell may end in the last command of a list (so that a program need not be executed in another process)
cannot be seen from outside: the status and what is left behind are the same, and it happens in the same cases. -/
theorem C48_lists (hE : Lawful E) (l : List AndOr) (S : St σ) (hs : Start S) (x : Nat) (w : ω) :
    (∃ n st, run E n (.lists l true) S = .exit st w ∧ st % 256 = x) ↔
      (∃ n st, run E n (.lists l false) S = .exit st w ∧ st % 256 = x) ∨
      (∃ n t, run E n (.lists l false) S = .ok t ∧ t.status % 256 = x ∧ E.final t.sh = w) := by
  constructor
  · rintro ⟨n, st, hr, rfl⟩
    obtain ⟨o, ho, hrel⟩ := (sound hE n).lists l true S hs (by rw [hr]; simp)
    rw [hr] at hrel
    have hf : o.finish E = (st % 256, w) := by simpa [Rel] using hrel
    cases o with
    | exit st' w' =>
      obtain ⟨m, hm⟩ := (C47_exit_partial hE l S hs st' w').2 ho
      simp only [Out.finish, Prod.mk.injEq] at hf
      exact .inl ⟨m, st', by rw [hm, hf.2], hf.1⟩
    | done sig st' s' =>
      obtain ⟨m, t, hm, _, e1, e2⟩ := (C47_commands_partial hE l S hs sig st' s').2 ho
      simp only [Out.finish, Prod.mk.injEq] at hf
      exact .inr ⟨m, t, hm, by rw [e1, hf.1], by rw [e2, hf.2]⟩
  · have key : ∀ o : Out σ ω, Sem E (fun _ => 0) (ctxOf S) (.list l) S.status S.sh o → o.finish E = (x, w) →
        ∃ n st, run E n (.lists l true) S = .exit st w ∧ st % 256 = x := by
      intro o ho hf
      obtain ⟨st, w', hr, hf'⟩ := (complete hE ho S true hs rfl rfl rfl).cases_true
      obtain ⟨n, hn⟩ := (exec_eq (by simp)).1 hr
      rw [hf] at hf'
      cases hf'
      exact ⟨n, st, hn, rfl⟩
    rintro (⟨n, st, hr, rfl⟩ | ⟨n, t, hr, rfl, rfl⟩)
    · exact key _ ((C47_exit_partial hE l S hs st w).1 ⟨n, hr⟩) rfl
    · obtain ⟨o, ho, hrel⟩ := (sound hE n).lists l false S hs (by rw [hr]; simp)
      rw [hr] at hrel
      rcases hrel.cases_false with ⟨_, _, e, _⟩ | ⟨u, sig', e, e', _, _⟩
      · cases e
      · cases e
        exact key _ ho (by rw [e']; rfl)

/-- C48: the same for scripts, whose last command is known to be the last when the end of the input has been seen. -/
theorem C48_script (hE : Lawful E) (inp : ι) (executed : Bool) (S : St σ) (hs : Start S) (x : Nat) (w : ω) :
    (∃ n st, run E n (.parse inp executed true) S = .exit st w ∧ st % 256 = x) ↔
      (∃ n st, run E n (.parse inp executed false) S = .exit st w ∧ st % 256 = x) ∨
      (∃ n t, run E n (.parse inp executed false) S = .ok t ∧ t.status % 256 = x ∧ E.final t.sh = w) := by
  constructor
  · rintro ⟨n, st, hr, rfl⟩
    obtain ⟨o, ho, hrel⟩ := (sound hE n).parse inp executed true S hs (by rw [hr]; simp)
    rw [hr] at hrel
    have hf : o.finish E = (st % 256, w) := by simpa [Rel] using hrel
    have hc := complete hE ho S false hs rfl rfl rfl
    rcases hc.cases_false with ⟨st', w', e, rfl⟩ | ⟨t, sig, e, rfl, _, _⟩
    · obtain ⟨m, hm⟩ := (exec_eq (by simp)).1 e
      simp only [Out.finish, Prod.mk.injEq] at hf
      exact .inl ⟨m, st', by rw [hm, hf.2], hf.1⟩
    · obtain ⟨m, hm⟩ := (exec_eq (by simp)).1 e
      simp only [Out.finish, Prod.mk.injEq] at hf
      exact .inr ⟨m, t, hm, hf.1, hf.2⟩
  · have key : ∀ n r, run E n (.parse inp executed false) S = r → r ≠ .none →
        (∀ o : Out σ ω, Rel E false S r o → o.finish E = (x, w)) →
        ∃ n st, run E n (.parse inp executed true) S = .exit st w ∧ st % 256 = x := by
      intro n r hr hn hf
      obtain ⟨o, ho, hrel⟩ := (sound hE n).parse inp executed false S hs (by rw [hr]; exact hn)
      rw [hr] at hrel
      obtain ⟨st, w', hr', hf'⟩ := (complete hE ho S true hs rfl rfl rfl).cases_true
      obtain ⟨m, hm⟩ := (exec_eq (by simp)).1 hr'
      rw [hf o hrel] at hf'
      cases hf'
      exact ⟨m, st, hm, rfl⟩
    rintro (⟨n, st, hr, rfl⟩ | ⟨n, t, hr, rfl, rfl⟩)
    · refine key n _ hr (by simp) fun o ho => ?_
      have : o = .exit st w := by simpa [Rel] using ho
      rw [this]; rfl
    · refine key n _ hr (by simp) fun o ho => ?_
      rcases ho.cases_false with ⟨_, _, e, _⟩ | ⟨u, sig', e, e', _, _⟩
      · cases e
      · cases e; rw [e']; rfl

/-- C48: the process does not go on behind a script or list in which it may end. -/
theorem C48_ends (hE : Lawful E) (inp : ι) (executed : Bool) (l : List AndOr) (S : St σ) (hs : Start S) (n : Nat) (t : St σ) :
    run E n (.parse inp executed true) S ≠ .ok t ∧ run E n (.lists l true) S ≠ .ok t := by
  constructor
  · intro hr
    obtain ⟨o, _, hrel⟩ := (sound hE n).parse inp executed true S hs (by rw [hr]; simp)
    obtain ⟨_, _, e, _⟩ := hrel.cases_true
    rw [hr] at e; cases e
  · intro hr
    obtain ⟨o, _, hrel⟩ := (sound hE n).lists l true S hs (by rw [hr]; simp)
    obtain ⟨_, _, e, _⟩ := hrel.cases_true
    rw [hr] at e; cases e

/-- The two ways differ: only in one of them the process ends in the list. -/
example : run Demo.shell 20 (.lists [Demo.one Demo.loop, Demo.one (Demo.cmd ["echo", "z"])] true) { sh := {} } =
      .exit 0 ["x".toList, "z".toList] ∧
    run Demo.shell 20 (.lists [Demo.one Demo.loop, Demo.one (Demo.cmd ["echo", "z"])] false) { sh := {} } =
      .ok { breakloopnest := 0, sh := { log := ["x".toList, "z".toList] } } := ⟨rfl, rfl⟩

/-! ## Functions, subshells and loops are boundaries -/

/-- C49: `break`, `continue` and `return` in a function, or in a script read by `.`, have no effect on what is around the call:
afterwards none of them is under way, and the numbers of loops around and the suppression of `errexit` and `errreturn` are as before. -/
theorem C49_function (hE : Lawful E) (body : Command) (args : List Str) (S t : St σ) (n : Nat) (hs : Start S)
    (hr : run E n (.func body args false) S = .ok t) :
    t.exc = .none ∧ t.loopnest ≤ t.breakloopnest ∧ t.loopnest = S.loopnest ∧ t.see = S.see ∧ t.ser = S.ser ∧
      t.noreturn = S.noreturn := by
  obtain ⟨o, ho, hrel⟩ := (sound hE n).func body args false S hs (by rw [hr]; simp)
  rw [hr] at hrel
  rcases hrel.cases_false with ⟨_, _, e, _⟩ | ⟨u, sig, e, e', hsm, hp⟩
  · cases e
  · cases e
    have : sig = .normal := by
      generalize t.sh = sh, t.status = st at e'
      rw [e'] at ho
      cases ho
      rfl
    subst this
    exact ⟨hp.1, hp.2, hsm.1, hsm.3, hsm.4, hsm.2⟩

/-- C49: nothing that is done in a subshell ends, or leaves loops or functions of, the shell around it. -/
theorem C49_subshell (hE : Lawful E) (r : List Redir) (l : List AndOr) (S : St σ) (n : Nat) (hs : Start S)
    (hn : run E n (.nonsimple (.subshell r l) false) S ≠ .none) :
    ∃ t st w, run E n (.nonsimple (.subshell r l) false) S = .ok t ∧ t.status = st % 256 ∧ t.sh = E.join S.sh w ∧
      t.exc = .none ∧ t.loopnest ≤ t.breakloopnest ∧ t.loopnest = S.loopnest ∧ t.see = S.see ∧ t.ser = S.ser ∧
      t.noreturn = S.noreturn := by
  obtain ⟨o, ho, hrel⟩ := (sound hE n).nonsimple (.subshell r l) false S hs hn
  cases ho with
  | subshell _ _ _ _ _ o h =>
    obtain ⟨t, hr, he⟩ := hrel.of_done
    refine ⟨t, (o.finish E).1, (o.finish E).2, hr, ?_, he.state, he.pend.1, he.pend.2, he.same.1, he.same.3, he.same.4, he.same.2⟩
    rw [he.status]
    cases o <;> simp [Out.finish]

/-- C49: a pipeline of several commands ends the shell only because of `errexit`, and what is left is only the function, because
of `errreturn`. -/
theorem C49_pipeline (hE : Lawful E) (cs : List Command) (hc : 2 ≤ cs.length) (S : St σ) (n : Nat) (hs : Start S)
    (hn : run E n (.commands cs false) S ≠ .none) (he : ∀ s, E.errexit s = false) (hr : ∀ s, E.errreturn s = false) :
    ∃ t, run E n (.commands cs false) S = .ok t ∧ t.exc = .none ∧ t.loopnest ≤ t.breakloopnest ∧ t.loopnest = S.loopnest := by
  obtain ⟨o, ho, hrel⟩ := (sound hE n).commands cs false S hs hn
  have key : ∀ st s, o = checked E (ctxOf S) .normal st s → ∃ t, run E n (.commands cs false) S = .ok t ∧
      t.exc = .none ∧ t.loopnest ≤ t.breakloopnest ∧ t.loopnest = S.loopnest := by
    intro st s e
    have : o = .done .normal st s := by rw [e]; simp [checked, he, hr]
    subst this
    obtain ⟨t, hr, he⟩ := hrel.of_done
    exact ⟨t, hr, he.pend.1, he.pend.2, he.same.1⟩
  cases ho with
  | cmds_basic => simp at hc
  | cmds_compound => simp at hc
  | cmds_many c cs st st' s os hl h2 h hst => exact key _ _ rfl

/-- C49: outside of loops there is no loop to leave: after any list of commands no `break` or `continue` is under way; and the
suppression of `errexit` and `errreturn` is as before after any list of commands. -/
theorem C49_list (hE : Lawful E) (l : List AndOr) (S t : St σ) (n : Nat) (hs : Start S) (hr : run E n (.lists l false) S = .ok t) :
    (S.loopnest = 0 → t.exc ≠ .cont ∧ t.loopnest ≤ t.breakloopnest) ∧ t.loopnest = S.loopnest ∧ t.see = S.see ∧
      t.ser = S.ser ∧ t.noreturn = S.noreturn := by
  obtain ⟨o, ho, hrel⟩ := (sound hE n).lists l false S hs (by rw [hr]; simp)
  rw [hr] at hrel
  rcases hrel.cases_false with ⟨_, _, e, _⟩ | ⟨u, sig, e, e', hsm, hp⟩
  · cases e
  · cases e
    refine ⟨fun h0 => ?_, hsm.1, hsm.3, hsm.4, hsm.2⟩
    have h1 := hsm.1
    cases sig with
    | normal => exact ⟨by rw [hp.1]; simp, hp.2⟩
    | brk m => have := hp.2.1; have := hp.2.2.1; omega
    | cont m => have := hp.2.1; have := hp.2.2.1; omega
    | ret => exact ⟨by rw [hp.1]; simp, hp.2⟩

/-- `f() { break; return; }` in a loop: the loop goes on behind the call. -/
example :
    let f : Command := .group [] [Demo.one (Demo.cmd ["break"]), Demo.one (Demo.cmd ["echo", "f"]), Demo.one (Demo.cmd ["return"]),
      Demo.one (Demo.cmd ["echo", "no"])]
    let s : Demo.State := { funcs := [("f".toList, f)] }
    let body := [Demo.one (Demo.cmd ["f"]), Demo.one (Demo.cmd ["echo", "x"])]
    run Demo.shell 30 (.lists [Demo.one (.fors [] ['i'] (some [[.str ['a']], [.str ['b']]]) body)] true) { sh := s } =
      .exit 0 ["f".toList, "x".toList, "f".toList, "x".toList] := rfl

/-! ## `errexit` -/

/-- What can be seen of a result: the end of the shell, or the status and the state. -/
def Res.seen : Res σ ω → Option (Nat × (ω ⊕ σ))
  | .none => Option.none
  | .exit st w => some (st, .inl w)
  | .ok t => some (t.status, .inr t.sh)

theorem Res.seen_ne {r : Res σ ω} {v : Nat × (ω ⊕ σ)} (h : r.seen = some v) : r ≠ .none := by
  rintro rfl; cases h

theorem Rel.seen {S : St σ} {r : Res σ ω} {o : Out σ ω} (h : Rel E false S r o) :
    r.seen = match (generalizing := false) o with
      | .done _ st s => some (st, .inr s)
      | .exit st w => some (st, .inl w) := by
  rcases h.cases_false with ⟨st, w, rfl, rfl⟩ | ⟨t, sig, rfl, rfl, _, _⟩ <;> rfl

theorem Rel.errexit {S : St σ} {r r' : Res σ ω} {o : Out σ ω} (f : σ → Bool) (h : Rel E false S r o)
    (h' : Rel (withErrexit E f) false S r' o) : r.seen = r'.seen := by rw [h.seen, h'.seen]

theorem Lawful.errexit (hE : Lawful E) (f : σ → Bool) : Lawful (withErrexit E f) :=
  ⟨hE.join, hE.undo, hE.keep, hE.close, hE.reset, hE.eof, hE.brk, hE.cont⟩

/-- C50: where failures are examined (in conditions, before `&&` and `||`, in negated pipelines, and in all that is called from
there), the setting of `errexit` makes no difference, whatever it is at each moment. -/
theorem C50_ignored (hE : Lawful E) (f : σ → Bool) (l : List AndOr) (S : St σ) (hs : Start S) (hsee : S.see = true)
    (v : Nat × (ω ⊕ σ)) :
    (∃ n, (run E n (.lists l false) S).seen = some v) ↔
      ∃ n, (run (withErrexit E f) n (.lists l false) S).seen = some v := by
  have key : ∀ (E : Shell σ ω ρ ι) (hE : Lawful E) (f : σ → Bool),
      (∃ n, (run E n (.lists l false) S).seen = some v) → ∃ n, (run (withErrexit E f) n (.lists l false) S).seen = some v := by
    rintro E hE f ⟨n, h⟩
    obtain ⟨o, ho, hrel⟩ := (sound hE n).lists l false S hs (Res.seen_ne h)
    have hc := complete (hE.errexit f) (sem_errexit f ho hsee) S false hs rfl rfl rfl
    rw [hrel.errexit f hc] at h
    obtain ⟨m, hm⟩ := (exec_eq (Res.seen_ne h)).1 rfl
    exact ⟨m, by rw [hm]; exact h⟩
  refine ⟨key E hE f, fun h => ?_⟩
  exact key (withErrexit E f) (hE.errexit f) E.errexit h

/-- C50: so it makes no difference for a negated pipeline, wherever it stands. -/
theorem C50_negated (hE : Lawful E) (f : σ → Bool) (cs : List Command) (cond : Bool) (S : St σ) (hs : Start S)
    (v : Nat × (ω ⊕ σ)) :
    (∃ n, (run E n (.pipes true [.mk cs true cond] false) S).seen = some v) ↔
      ∃ n, (run (withErrexit E f) n (.pipes true [.mk cs true cond] false) S).seen = some v := by
  have key : ∀ (E : Shell σ ω ρ ι) (hE : Lawful E) (f : σ → Bool),
      (∃ n, (run E n (.pipes true [.mk cs true cond] false) S).seen = some v) →
      ∃ n, (run (withErrexit E f) n (.pipes true [.mk cs true cond] false) S).seen = some v := by
    rintro E hE f ⟨n, h⟩
    obtain ⟨o, ho, hrel⟩ := (sound hE n).chain [.mk cs true cond] false S hs (Res.seen_ne h)
    have ho' : Sem (withErrexit E f) (fun _ => 0) (ctxOf S) (.chain [.mk cs true cond]) S.status S.sh o := by
      cases ho with
      | chain_last _ _ _ _ _ ho =>
        refine .chain_last _ _ _ _ _ ?_
        cases ho with
        | negated _ _ _ _ st' _ s' h => exact .negated _ _ _ _ st' _ s' (sem_errexit f h rfl)
        | negated_stop _ _ _ _ _ _ h h2 => exact .negated_stop _ _ _ _ _ _ (sem_errexit f h rfl) h2
      | chain_cons _ _ _ _ _ _ _ _ hne => exact absurd rfl hne
      | chain_stop _ _ _ _ _ _ hne => exact absurd rfl hne
    have hc := complete (hE.errexit f) ho' S false hs rfl rfl rfl
    rw [hrel.errexit f hc] at h
    obtain ⟨m, hm⟩ := (exec_eq (Res.seen_ne h)).1 rfl
    exact ⟨m, by rw [hm]; exact h⟩
  exact ⟨key E hE f, fun h => key (withErrexit E f) (hE.errexit f) E.errexit h⟩

/-- C50: and for the condition of `if`, `while` or `until`. -/
theorem C50_condition (hE : Lawful E) (f : σ → Bool) (l : List AndOr) (S : St σ) (hs : Start S) (v : Nat × (ω ⊕ σ)) :
    (∃ n, (run E n (.cond l) S).seen = some v) ↔ ∃ n, (run (withErrexit E f) n (.cond l) S).seen = some v := by
  have key : ∀ (E : Shell σ ω ρ ι) (hE : Lawful E) (f : σ → Bool),
      (∃ n, (run E n (.cond l) S).seen = some v) → ∃ n, (run (withErrexit E f) n (.cond l) S).seen = some v := by
    rintro E hE f ⟨n, h⟩
    obtain ⟨o, ho, hrel⟩ := (sound hE n).cond l S hs (Res.seen_ne h)
    have hc := does_cond hs (complete (hE.errexit f) (sem_errexit f ho rfl))
    rw [hrel.errexit f hc] at h
    obtain ⟨m, hm⟩ := (exec_eq (Res.seen_ne h)).1 rfl
    exact ⟨m, by rw [hm]; exact h⟩
  exact ⟨key E hE f, fun h => key (withErrexit E f) (hE.errexit f) E.errexit h⟩

/-- C50: where failures are not examined, a pipeline that is not a compound command does not fail without ending the shell if
`errexit` is on afterwards. -/
theorem C50_exits (hE : Lawful E) (cs : List Command)
    (hb : ∀ c, cs = [c] → (∃ r a w, c = .simple r a w) ∨ (∃ r l, c = .subshell r l) ∨ (∃ r e, c = .bracket r e))
    (S t : St σ) (n : Nat) (hs : Start S) (hsee : S.see = false) (hr : run E n (.commands cs false) S = .ok t)
    (he : E.errexit t.sh = true) : t.status = 0 := by
  obtain ⟨o, ho, hrel⟩ := (sound hE n).commands cs false S hs (by rw [hr]; simp)
  rw [hr] at hrel
  have key : ∀ sig st s, o = checked E (ctxOf S) sig st s → t.status = 0 := by
    intro sig st s e
    rcases hrel.cases_false with ⟨_, _, e', _⟩ | ⟨u, sig', e1, e2, _, _⟩
    · cases e'
    · cases e1
      rw [e2] at e
      unfold checked at e
      split at e
      · cases e
      · rename_i hn
        have : st = t.status ∧ s = t.sh := by
          split at e <;> cases e <;> exact ⟨rfl, rfl⟩
        obtain ⟨rfl, rfl⟩ := this
        exact Classical.byContradiction fun h0 => hn ⟨h0, he, hsee⟩
  cases ho with
  | cmds_basic _ x _ _ o hbx h =>
    cases o with
    | done sig st s => exact key sig st s rfl
    | exit st w => exact absurd hrel (by simp [Rel, Out.checked])
  | cmds_compound _ x _ _ _ hbx h =>
    exfalso
    rcases hb x rfl with ⟨_, _, _, rfl⟩ | ⟨_, _, rfl⟩ | ⟨_, _, rfl⟩ <;> exact hbx trivial
  | cmds_many c cs st st' s os hl h2 h hst => exact key _ _ _ rfl

/-- `set -e; false && true; if false; then :; fi; echo a; false; echo b` writes `a` only and fails. -/
example :
    run Demo.shell 30 (.parse [[Demo.one (Demo.cmd ["set"]), Demo.both (Demo.cmd ["false"]) (Demo.cmd ["echo", "x"])],
      [Demo.one (.ifs [] [.cond [Demo.one (Demo.cmd ["false"])] []]), Demo.one (Demo.cmd ["echo", "a"]),
      Demo.one (Demo.cmd ["false"]), Demo.one (Demo.cmd ["echo", "b"])]] false true) { sh := {} } = .exit 1 ["a".toList] := rfl

/-- A state in which failures are examined. -/
example : ∃ S : St Demo.State, Start S ∧ S.see = true ∧
    run Demo.shell 20 (.lists [Demo.one (Demo.cmd ["false"])] false) S = .ok { S with status := 1 } :=
  ⟨{ see := true, sh := { errexit := true } }, ⟨rfl, Nat.le_refl _⟩, rfl, rfl⟩

end Yash.Exec
