import Verif.Sig.Quiet
/-!
# C51, C52, C53: signals and traps
-/
set_option autoImplicit false

namespace Yash.Sig
open Spec

variable {e : Entry} {u : User} {st : State}

/-! ## What programs get -/

theorem inherited_of {loose : Signal → Bool} {p : State} (h : Core e u (special false false false) loose p) {s : Signal}
    (hs : s ≠ .exit) : inherited p s = if u.act s = .ignore then .ign else .dfl := by
  have hd := h.disp s hs
  have : special false false false s = none := by cases s <;> rfl
  rw [this] at hd
  unfold inherited
  cases ha : u.act s with
  | default =>
    rw [ha] at hd
    simp only [DispOk, Option.getD_none, true_and] at hd
    rcases hd with hd | hd
    · simp [hd]
    · simp [hd.2]
  | ignore => rw [ha] at hd; simp only [DispOk, Option.getD_none] at hd; simp [hd]
  | command c => rw [ha] at hd; simp only [DispOk] at hd; simp [hd]

/-- A program started in place of the shell. -/
theorem Inv.exec (h : Inv e u st) : ∃ p, atExec st = some p ∧
    (∀ s, s ≠ .exit → inherited p s = if u.act s = .ignore then .ign else .dfl) ∧ p.mask = u.blocked := by
  obtain ⟨p, h1, h2, _⟩ := h.leave
  refine ⟨p, h1, fun s hs => inherited_of h2.core hs, ?_⟩
  rw [h2.mask]; exact funext h2.core.mask

/-- A program started in a new process. -/
theorem Inv.forkExec (h : Inv e u st) (hok : e.Ok) (sigs : List Signal) : ∃ p, atForkExec sigs st = some p ∧
    (∀ s, s ≠ .exit → inherited p s = if u.act s = .ignore then .ign else .dfl) ∧ p.mask = u.blocked := by
  have h1 : ∃ u', Inv e u' (Sig.setTrap .exit none st) ∧ (∀ s, s ≠ .exit → u'.act s = u.act s) ∧ u'.blocked = u.blocked := by
    cases hp : st.phantom with
    | false =>
      refine ⟨_, h.setTrap hp (Or.inl rfl) none hok, ?_, ?_⟩
      · intro s hs; unfold User.trap; simp [hs]
      · unfold User.trap; simp
    | true =>
      have : Sig.setTrap .exit none st = st := by
        unfold Sig.setTrap
        simp [originallyIgnored, storeCommand, hp]
      rw [this]
      exact ⟨u, h, fun _ _ => rfl, rfl⟩
  obtain ⟨u', i1, a1, b1⟩ := h1
  obtain ⟨p, r, l, _⟩ := i1.leave
  refine ⟨{ p with jobControl := false, interactiveNow := false, scan := none, running := false }, ?_, ?_, ?_⟩
  · unfold atForkExec becomeChild
    simp only [if_true, Bool.false_and, Bool.false_eq_true, if_false]
    unfold atExec at r
    rw [r]
    simp only [Option.map_some, Option.bind_some]
    unfold atExec restoreSignals restoreJob restoreInter restoreMain
    simp only [l.job, l.inter, l.main, Bool.false_eq_true, if_false, Option.bind_some]
  · intro s hs
    rw [← a1 s hs]
    have := inherited_of l.core hs
    exact this
  · rw [← b1]
    have : p.mask = u'.blocked := by rw [l.mask]; exact funext l.core.mask
    exact this

/-- C51: whatever signals arrive and whatever traps are set, in subshells or not, the shell never fails; programs that it starts
ignore exactly the signals whose action is to ignore them, all others have their default action, and the mask is that of
the shell at its start without the signals for which commands have been set. -/
theorem C51_program_signals {disp : Signal → Disp} (hd : Initial disp) (mask : Signal → Bool) (interactive jobs : Bool)
    (sigs : List Signal) (ops : List Op) :
    ∃ st log u, run sigs ops (start disp mask interactive jobs) = some (st, log) ∧
      Run (entry disp mask interactive sigs) (User.start (entry disp mask interactive sigs) jobs) ops u ∧
      (∃ p, atExec st = some p ∧ (∀ s, s ≠ .exit → inherited p s = if u.act s = .ignore then .ign else .dfl) ∧
        p.mask = u.blocked) ∧
      (∃ p, atForkExec sigs st = some p ∧ (∀ s, s ≠ .exit → inherited p s = if u.act s = .ignore then .ign else .dfl) ∧
        p.mask = u.blocked) := by
  obtain ⟨h, hok, _⟩ := start_full (e := entry disp mask interactive sigs) disp hd.notCaught ⟨hd.exit, hd.kill, hd.stop⟩ mask
    interactive jobs sigs rfl rfl rfl
  obtain ⟨st, log, u, hr, ht, hf, _⟩ := h.run hok ops
  exact ⟨st, log, u, hr, ht, hf.inv.exec, hf.inv.forkExec hok sigs⟩

/-- C51: the documented behaviour.  Missing: subshells that are started where a signal is ignored whose command is remembered
from the parent (see `C51_lost_ignore`). -/
theorem C51_documented_partial {disp : Signal → Disp} (hd : Initial disp) (mask : Signal → Bool) (interactive jobs : Bool)
    (sigs : List Signal) (ops : List Op)
    (hc : Clean (entry disp mask interactive sigs) (User.start (entry disp mask interactive sigs) jobs) ops) :
    ∃ st log p, run sigs ops (start disp mask interactive jobs) = some (st, log) ∧ atForkExec sigs st = some p ∧
      (∀ s, s ≠ .exit → (inherited p s = .ign ↔
        ((User.start (entry disp mask interactive sigs) jobs).run (entry disp mask interactive sigs) ops).act s = .ignore)) ∧
      p.mask = ((User.start (entry disp mask interactive sigs) jobs).run (entry disp mask interactive sigs) ops).blocked := by
  obtain ⟨h, hok, _⟩ := start_full (e := entry disp mask interactive sigs) disp hd.notCaught ⟨hd.exit, hd.kill, hd.stop⟩ mask
    interactive jobs sigs rfl rfl rfl
  obtain ⟨st, log, u, hr, ht, hf, hu⟩ := h.run hok ops
  obtain ⟨p, h1, h2, h3⟩ := hf.inv.forkExec hok sigs
  rw [← hu hc]
  refine ⟨st, log, p, hr, h1, ?_, h3⟩
  intro s hs
  rw [h2 s hs]
  by_cases hig : u.act s = .ignore
  · simp [hig]
  · simp [hig]

/-- The dispositions of a process that has been started normally. -/
def plain : Signal → Disp := fun _ => .dfl

theorem plain_initial : Initial plain := ⟨by simp [plain], rfl, rfl, rfl⟩

/-- The signals of the examples. -/
def demoSigs : List Signal := [.int, .quit, .term, .chld, .tstp, .ttin, .ttou, .winch, .kill, .stop, .other 1]

/-- Traps, subshells and job control in an example. -/
example : Clean (entry plain (fun _ => false) false demoSigs) (User.start (entry plain (fun _ => false) false demoSigs) false)
    [.trap .int (some ['x']), .trap .term (some []), .arrive .int, .enter false false, .trap .int (some [])] ∧
    ((run demoSigs [.trap .int (some ['x']), .trap .term (some []), .arrive .int, .enter false false, .trap .int (some [])]
      (start plain (fun _ => false) false false)).bind fun x => (atForkExec demoSigs x.1).map fun p =>
        ([Signal.int, .term, .quit, .chld].map (inherited p))) = some [.ign, .ign, .dfl, .dfl] := by
  refine ⟨?_, by decide⟩
  refine ⟨by simp, ⟨by simp, ⟨by simp, ⟨?_, ⟨by simp, trivial⟩⟩⟩⟩⟩
  intro _ s hs
  revert hs
  simp [User.step, User.trap, User.start, entry, plain]

/-- C51: the documented behaviour when no signal is received, whatever subshells are started.  Missing: histories with signals
where a subshell is started while a signal is ignored whose command is remembered (see `C51_lost_ignore`). -/
theorem C51_documented_quiet_partial {disp : Signal → Disp} (hd : Initial disp) (mask : Signal → Bool) (interactive jobs : Bool)
    (sigs : List Signal) (ops : List Op) (hc : ∀ s, Op.arrive s ∉ ops) :
    ∃ st log p, run sigs ops (start disp mask interactive jobs) = some (st, log) ∧ atForkExec sigs st = some p ∧
      (∀ s, s ≠ .exit → (inherited p s = .ign ↔
        ((User.start (entry disp mask interactive sigs) jobs).run (entry disp mask interactive sigs) ops).act s = .ignore)) ∧
      p.mask = ((User.start (entry disp mask interactive sigs) jobs).run (entry disp mask interactive sigs) ops).blocked := by
  obtain ⟨h, hok, _⟩ := start_full (e := entry disp mask interactive sigs) disp hd.notCaught ⟨hd.exit, hd.kill, hd.stop⟩ mask
    interactive jobs sigs rfl rfl rfl
  have hq : Quiet (start disp mask interactive jobs) :=
    have hf := (setSignals_frame (init disp mask interactive jobs)).2
    ⟨hf.any, fun hp => by rw [show (start disp mask interactive jobs).phantom = false from hf.phantom] at hp; cases hp⟩
  obtain ⟨st, log, hr, hf⟩ := h.quiet hq hok ops hc
  obtain ⟨p, h1, h2, h3⟩ := hf.inv.forkExec hok sigs
  refine ⟨st, log, p, hr, h1, ?_, h3⟩
  intro s hs
  rw [h2 s hs]
  by_cases hig : ((User.start (entry disp mask interactive sigs) jobs).run (entry disp mask interactive sigs) ops).act s = .ignore
  · simp [hig]
  · simp [hig]

/-- The history of `C51_lost_ignore` without the signal: `SIGINT` remains ignored in the nested subshell. -/
example : ((run demoSigs [.trap .int (some ['x']), .enter true false, .enter false false]
      (start plain (fun _ => false) false false)).bind fun x => (atForkExec demoSigs x.1).map fun p => inherited p .int) =
    some .ign := by decide

/-- C51 fails otherwise: in an asynchronous list `SIGINT` is ignored; a subshell of it resets it if a command had been set for it
before and any signal has been received. -/
theorem C51_lost_ignore : ∃ ops : List Op,
    ((run demoSigs ops (start plain (fun _ => false) false false)).bind fun x => (atForkExec demoSigs x.1).map fun p =>
      inherited p .int) = some .dfl ∧
    ((User.start (entry plain (fun _ => false) false demoSigs) false).run (entry plain (fun _ => false) false demoSigs) ops).act
      .int = .ignore :=
  ⟨[.trap .int (some ['x']), .enter true false, .arrive .chld, .enter false false], by decide, by decide⟩

/-- What was ignored when a non-interactive shell was started remains ignored. -/
theorem Run.keeps_ignored {u' : User} {ops : List Op} (h : Run e u ops u') {s : Signal} (hs : s ≠ .exit)
    (hi : e.interactive = false) (hg : e.ignored s = true) (h1 : u.act s = .ignore) (h2 : u.remembered s = false) :
    u'.act s = .ignore ∧ u'.remembered s = false := by
  induction h with
  | nil => exact ⟨h1, h2⟩
  | cons t _ ih =>
    apply ih
    all_goals (clear ih; cases t)
    all_goals try assumption
    · rename_i a c
      simp only [User.trap]
      rw [if_neg]
      · exact h1
      · rintro ⟨rfl, hh | ⟨_, _, _, hh | hh⟩⟩
        · exact hs hh
        · rw [hi] at hh; cases hh
        · rw [hg] at hh; cases hh
    · rename_i lost q t hl _
      have hlost : lost s = false := by
        cases hh : lost s with
        | false => rfl
        | true => have := hl s hh; rw [h2] at this; cases this
      have hnc : ¬(Action.ignore).IsCommand := by rintro ⟨c, hh⟩; cases hh
      simp only [User.enter, h1, hlost]
      simp [hnc]
    · rfl
    · have hnc : ¬(Action.ignore).IsCommand := by rintro ⟨c, hh⟩; cases hh
      simp [User.enter, h1, h2, hnc]

/-- C51: programs started by a non-interactive shell ignore the signals that were ignored when the shell was started, whatever
the shell is told about them. -/
theorem C51_ignored_on_entry {disp : Signal → Disp} (hd : Initial disp) (mask : Signal → Bool) (jobs : Bool)
    (sigs : List Signal) (ops : List Op) (s : Signal) (hs : disp s = .ign) :
    ∃ st log p q, run sigs ops (start disp mask false jobs) = some (st, log) ∧
      atForkExec sigs st = some p ∧ inherited p s = .ign ∧ atExec st = some q ∧ inherited q s = .ign := by
  have hse : s ≠ .exit := by rintro rfl; rw [hd.exit] at hs; cases hs
  obtain ⟨st, log, u, hr, ht, ⟨p, p1, p2, _⟩, ⟨q, q1, q2, _⟩⟩ := C51_program_signals hd mask false jobs sigs ops
  have := (Run.keeps_ignored ht hse rfl (by simp [entry, hs]) (by simp [User.start, entry, hs]) rfl).1
  refine ⟨st, log, q, p, hr, q1, ?_, p1, ?_⟩
  · rw [q2 s hse, if_pos this]
  · rw [p2 s hse, if_pos this]

/-- Dispositions with an ignored signal. -/
example : Initial (fun s => if s = .int then .ign else .dfl) := ⟨by intro s; by_cases h : s = .int <;> simp [h], rfl, rfl, rfl⟩

/-! ## What the shell does itself -/

theorem Inv.ownDisp (h : Inv e u st) {s : Signal} (hs : s ≠ .exit) :
    st.disp s = shellDisp st.interactiveNow u.jobs s (u.act s) := by
  have hd := h.core.disp s hs
  have hj : st.jobSet = u.jobs := by rw [h.job, h.core.jobs]
  rw [hj, h.inter] at hd
  cases ha : u.act s with
  | command c => rw [ha] at hd; exact hd
  | default =>
    rw [ha] at hd
    simp only [DispOk, Bool.false_eq_true, false_and, and_false, or_false] at hd
    rw [hd]
    cases s <;> simp [shellDisp, special] <;> split <;> simp
  | ignore =>
    rw [ha] at hd
    simp only [DispOk] at hd
    rw [hd]
    cases s <;> simp [shellDisp, special] <;> split <;> simp

theorem Full.runNow (h : Full e u st) (hok : e.Ok) (ops : List Op) {st' : State} {log : List (Signal × Str)}
    (hr : Sig.run e.sigs ops st = some (st', log)) : st'.interactiveNow = (st.interactiveNow && !entered ops) := by
  induction ops generalizing u st log with
  | nil => simp only [Sig.run, Option.some.injEq, Prod.mk.injEq] at hr; rw [← hr.1]; simp [entered]
  | cons op ops ih =>
    obtain ⟨s1, o, u1, r1, t1, i1, f1, c1⟩ := h.step hok op
    simp only [Sig.run, r1] at hr
    cases hh : Sig.run e.sigs ops s1 with
    | none => rw [hh] at hr; cases hr
    | some x =>
      obtain ⟨s2, l2⟩ := x
      rw [hh] at hr
      simp only [Option.some.injEq, Prod.mk.injEq] at hr
      obtain ⟨rfl, _⟩ := hr
      rw [ih i1 hh, f1.now]
      cases op <;> simp [entered]

/-- C52: the shell process catches the signals for which commands are set and those it needs itself, ignores what it must ignore
as an interactive shell or with job control, and does with all others what the user wants; signals for which commands
are set are blocked except when the shell is ready to handle them, and then they are let through. -/
theorem C52_shell_signals {disp : Signal → Disp} (hd : Initial disp) (mask : Signal → Bool) (interactive jobs : Bool)
    (sigs : List Signal) (ops : List Op) :
    ∃ st log u, run sigs ops (start disp mask interactive jobs) = some (st, log) ∧
      Run (entry disp mask interactive sigs) (User.start (entry disp mask interactive sigs) jobs) ops u ∧
      (∀ s, s ≠ .exit → st.disp s = shellDisp (interactive && !entered ops) u.jobs s (u.act s)) ∧
      (∀ s, s ≠ .exit → (u.act s).IsCommand → st.mask s = true ∧ accepts st s = true) ∧
      (st.mask .chld = true ∧ accepts st .chld = true) := by
  obtain ⟨h, hok, _, _, _, hn⟩ := start_full (e := entry disp mask interactive sigs) disp hd.notCaught
    ⟨hd.exit, hd.kill, hd.stop⟩ mask interactive jobs sigs rfl rfl rfl
  obtain ⟨st, log, u, hr, ht, hf, _⟩ := h.run hok ops
  have hnow := h.runNow hok ops hr
  rw [hn] at hnow
  refine ⟨st, log, u, hr, ht, ?_, ?_, ?_⟩
  · intro s hs; rw [← hnow]; exact hf.inv.ownDisp hs
  · intro s hs hc
    have htr := (hf.inv.core.trapped s hs).2 hc
    refine ⟨hf.inv.block s (Or.inl htr), ?_⟩
    unfold accepts
    rw [hf.inv.core.accept s htr]
    simp
  · exact ⟨hf.inv.block .chld (Or.inr (Or.inl rfl)), by simp [accepts]⟩

example : ((run demoSigs [.trap .quit (some ['x']), .jobControl true] (start plain (fun _ => false) true false)).map fun x =>
    ([Signal.int, .term, .quit, .chld, .tstp, .other 1].map x.1.disp, x.1.mask .quit, accepts x.1 .quit)) =
    some ([.catch, .ign, .catch, .catch, .ign, .dfl], true, true) := by decide

/-! ## The execution of traps -/

/-- No subshell is started by an action. -/
def NoChildOfAction (sigs : List Signal) : List Op → State → Prop
  | [], _ => True
  | op :: ops, st =>
    ((∃ q t, op = .enter q t) → st.scan = none) ∧ ∀ st' o, step sigs st op = some (st', o) → NoChildOfAction sigs ops st'

theorem Full.handled (h : Full e u st) (hok : e.Ok) (ops : List Op) (hn : NoChildOfAction e.sigs ops st)
    (hh : st.handled = true → st.scan ≠ none) {st' : State} {log : List (Signal × Str)}
    (hr : Sig.run e.sigs ops st = some (st', log)) : st'.handled = true → st'.scan ≠ none := by
  induction ops generalizing u st log with
  | nil => simp only [Sig.run, Option.some.injEq, Prod.mk.injEq] at hr; rw [← hr.1]; exact hh
  | cons op ops ih =>
    obtain ⟨s1, o, u1, r1, t1, i1, f1, c1⟩ := h.step hok op
    simp only [Sig.run, r1] at hr
    cases hx : Sig.run e.sigs ops s1 with
    | none => rw [hx] at hr; cases hr
    | some x =>
      obtain ⟨s2, l2⟩ := x
      rw [hx] at hr
      simp only [Option.some.injEq, Prod.mk.injEq] at hr
      obtain ⟨rfl, _⟩ := hr
      refine ih i1 (hn.2 s1 o r1) ?_ hx
      by_cases he : ∃ q t, op = .enter q t
      · obtain ⟨q, t, rfl⟩ := he
        have hs := hn.1 ⟨q, t, rfl⟩
        have hhf : st.handled = false := by
          cases hc : st.handled with
          | false => rfl
          | true => exact absurd hs (hh hc)
        obtain ⟨s3, r3, _, _, _, _, h3, _⟩ := h.inv.enter q t
        simp only [Sig.step, r3, Option.map_some, Option.some.injEq, Prod.mk.injEq] at r1
        obtain ⟨rfl, _⟩ := r1
        rw [h3, hhf]; intro hc; cases hc
      · exact f1.handled hh (fun q t hq => he ⟨q, t, hq⟩)

/-- One round of the loop. -/
def turn (sigs : List Signal) (st : State) : State := (nextTrap sigs { st with running := false }).1

/-- How often the loop will go round. -/
def left (sigs : List Signal) (st : State) : Nat :=
  match st.scan with
  | none => 0
  | some r => r.length + 1 + if st.any then sigs.length + 1 else 0

theorem turn_left (sigs : List Signal) (st : State) (hd : st.scan = none → st.any = false) :
    left sigs (turn sigs st) = left sigs st - 1 ∧ ((turn sigs st).scan = none → (turn sigs st).any = false) := by
  unfold turn nextTrap
  simp only [Bool.false_eq_true, if_false]
  cases hsc : st.scan with
  | none => simp only [left, hsc]; exact ⟨by simp, fun _ => hd hsc⟩
  | some l =>
    cases l with
    | nil =>
      simp only []
      split
      · rename_i ha; simp [left, hsc, ha]
      · rename_i ha; simp [left, hsc, ha]
    | cons a l =>
      have key : ∀ st' : State, st'.scan = some l → st'.any = st.any → left sigs st' = left sigs st - 1 := by
        intro st' h1 h2; simp [left, hsc, h1, h2]
      simp only []
      by_cases hra : st.received a = true
      · rw [if_pos hra]
        split
        · split
          · exact ⟨key _ rfl rfl, by simp⟩
          · exact ⟨key _ rfl rfl, by simp⟩
        · exact ⟨key _ rfl rfl, by simp⟩
      · rw [if_neg hra]
        exact ⟨key _ rfl rfl, by simp⟩

/-- Several rounds. -/
def turns (sigs : List Signal) : Nat → State → State
  | 0, st => st
  | n + 1, st => turns sigs n (turn sigs st)

theorem run_turns (sigs : List Signal) (n : Nat) (st : State) :
    ∃ log, run sigs (List.replicate n [Op.finish, Op.next]).flatten st = some (turns sigs n st, log) := by
  induction n generalizing st with
  | zero => exact ⟨[], rfl⟩
  | succ n ih =>
    obtain ⟨log, h⟩ := ih (turn sigs st)
    rw [List.replicate_succ, List.flatten_cons, run_append]
    have : run sigs [Op.finish, Op.next] st = some (turn sigs st, (nextTrap sigs { st with running := false }).2.toList) := by
      simp [run, step, turn]
    rw [this]
    simp only [h]
    exact ⟨_, rfl⟩

theorem turns_left (sigs : List Signal) (n : Nat) (st : State) (hd : st.scan = none → st.any = false) :
    left sigs (turns sigs n st) = left sigs st - n ∧ ((turns sigs n st).scan = none → (turns sigs n st).any = false) := by
  induction n generalizing st with
  | zero => exact ⟨rfl, hd⟩
  | succ n ih =>
    obtain ⟨h1, h2⟩ := turn_left sigs st hd
    obtain ⟨h3, h4⟩ := ih (turn sigs st) h2
    refine ⟨?_, h4⟩
    show left sigs (turns sigs n (turn sigs st)) = _
    rw [h3, h1]; omega

theorem left_zero {sigs : List Signal} {st : State} (h : left sigs st = 0) : st.scan = none := by
  unfold left at h
  cases hs : st.scan with
  | none => rfl
  | some r => rw [hs] at h; simp at h

/-- `handle_traps` ends, and nothing is left to be done. -/
theorem Full.drain (h : Full e u st) (hh : st.handled = true → st.scan ≠ none) (ha : st.anyTrap = true) {n : Nat}
    (hn : 2 * (e.sigs.length + 1) ≤ n) : ∃ st' log, Sig.run e.sigs (handleTraps n) st = some (st', log) ∧ st'.scan = none ∧
      st'.any = false := by
  have hd : (beginTraps e.sigs st).scan = none → (beginTraps e.sigs st).any = false := by
    unfold beginTraps
    split
    · rename_i hc
      intro hs
      simp only [hs, Option.isSome_none, ha, Bool.not_true, Bool.or_false, Bool.false_or, Bool.or_eq_true, Bool.not_eq_true'] at hc
      rcases hc with hc | hc
      · exact hc
      · exact absurd hs (hh hc)
    · intro hs; cases hs
  have hl : left e.sigs (beginTraps e.sigs st) ≤ n := by
    have hs : Short e.sigs (beginTraps e.sigs st) := by
      unfold beginTraps
      split
      · exact h.short
      · intro r hr; cases hr; exact Nat.le_refl _
    unfold left
    cases hsc : (beginTraps e.sigs st).scan with
    | none => simp
    | some r =>
      have := hs r hsc
      simp only []
      split <;> omega
  obtain ⟨h1, h2⟩ := turns_left e.sigs n _ hd
  obtain ⟨log, h3⟩ := run_turns e.sigs n (beginTraps e.sigs st)
  have hz := left_zero (h1.trans (by omega))
  exact ⟨_, log, by simp [handleTraps, Sig.run, Sig.step, h3], hz, h2 hz⟩

/-- A signal that has been received is not forgotten. -/
theorem Full.persist (h : Full e u st) (hok : e.Ok) {s : Signal} {c : Str} (ha : u.act s = .command c) (hr : st.received s = true)
    (ops : List Op) (hk : ∀ op ∈ ops, Keeps s op) {st' : State} {log : List (Signal × Str)}
    (hrun : Sig.run e.sigs ops st = some (st', log)) :
    (s, c) ∈ log ∨ ∃ u', Full e u' st' ∧ u'.act s = .command c ∧ st'.received s = true := by
  induction ops generalizing u st log with
  | nil =>
    simp only [Sig.run, Option.some.injEq, Prod.mk.injEq] at hrun
    rw [← hrun.1]
    exact Or.inr ⟨u, h, ha, hr⟩
  | cons op ops ih =>
    obtain ⟨s1, o, u1, r1, t1, i1, f1, _⟩ := h.step hok op
    have hkeep := hk op (by simp)
    have ha1 : u1.act s = .command c := by
      cases t1 with
      | trap a d =>
        simp only [User.trap]
        rw [if_neg]
        · exact ha
        · rintro ⟨rfl, _⟩; exact hkeep.1 d rfl
      | enter lost q t => exact absurd rfl (hkeep.2 q t)
      | jobControl on => exact ha
      | arrive a => exact ha
      | execFails => exact ha
      | begin => exact ha
      | next => exact ha
      | finish => exact ha
    simp only [Sig.run, r1] at hrun
    cases hx : Sig.run e.sigs ops s1 with
    | none => rw [hx] at hrun; cases hrun
    | some x =>
      obtain ⟨s2, l2⟩ := x
      rw [hx] at hrun
      simp only [Option.some.injEq, Prod.mk.injEq] at hrun
      obtain ⟨rfl, rfl⟩ := hrun
      rcases f1.keep s c ha hr hkeep.1 hkeep.2 with hr1 | hout
      · rcases ih i1 ha1 hr1 (fun op' hm => hk op' (by simp [hm])) hx with hm | hm
        · exact Or.inl (by simp [hm])
        · exact Or.inr hm
      · exact Or.inl (by simp [hout])

theorem noChild_of_keeps {sigs : List Signal} {s : Signal} (l : List Op) (hk : ∀ op ∈ l, Keeps s op) (st : State) :
    NoChildOfAction sigs l st := by
  induction l generalizing st with
  | nil => trivial
  | cons op l ih =>
    refine ⟨?_, fun st' o _ => ih (fun op' hm => hk op' (by simp [hm])) st'⟩
    rintro ⟨q, t, rfl⟩
    exact absurd rfl ((hk _ (by simp)).2 q t)

/-- C53: if a signal arrives while its action is a command, then the command is executed, whatever happens in between, when
`handle_traps` has been called again and has ended; and it ends, if no more signals arrive, however many signals have been
received.  `ops` is what has happened before, `later` what happens until then, which may include the middle of
`handle_traps` itself. -/
theorem C53_no_signal_lost_partial {disp : Signal → Disp} (hd : Initial disp) (mask : Signal → Bool) (interactive jobs : Bool)
    (sigs : List Signal) (ops later : List Op) (s : Signal) (c : Str) (hs : s ≠ .exit)
    (hact : ((User.start (entry disp mask interactive sigs) jobs).run (entry disp mask interactive sigs) ops).act s = .command c)
    (hchild : NoChildOfAction sigs ops (start disp mask interactive jobs)) (hkeep : ∀ op ∈ later, Keeps s op)
    (n : Nat) (hn : 2 * (sigs.length + 1) ≤ n) :
    ∃ st log st' log', run sigs ops (start disp mask interactive jobs) = some (st, log) ∧
      run sigs (.arrive s :: (later ++ handleTraps n)) st = some (st', log') ∧ (s, c) ∈ log' := by
  obtain ⟨h, hok, _, hh, _⟩ := start_full (e := entry disp mask interactive sigs) disp hd.notCaught ⟨hd.exit, hd.kill, hd.stop⟩ mask
    interactive jobs sigs rfl rfl rfl
  obtain ⟨st, log, u, hr, ht, hf, _⟩ := h.run hok ops
  have hu : u.act s = .command c := (((Agree.refl _).run ht).act s c).2 hact
  have hhandled := h.handled hok ops hchild (by rw [hh]; intro hc; cases hc) hr
  -- the signal arrives
  obtain ⟨s1, o, u1, r1, t1, i1, f1, _⟩ := hf.step hok (.arrive s)
  have hu1 : u1 = u := by cases t1; rfl
  subst hu1
  have hcatch : st.disp s = .catch := by
    have := hf.inv.core.disp s hs
    rw [hu] at this; exact this
  have hrec := (f1.arrive s rfl hcatch).1
  have hh1 := f1.handled hhandled (by simp)
  have ho : o = none := by simp only [Sig.step, Option.some.injEq, Prod.mk.injEq] at r1; exact r1.2.symm
  -- what happens until `handle_traps` is called
  obtain ⟨s2, l2, u2, r2, t2, i2, _⟩ := i1.run hok later
  have hh2 : s2.handled = true → s2.scan ≠ none := by
    have hno : NoChildOfAction sigs later s1 := noChild_of_keeps later hkeep s1
    exact i1.handled hok later hno hh1 r2
  have hu2 : u2.act s = .command c := by
    clear r2 i2 hh2
    have : ∀ (l : List Op) (v w : User), (∀ op ∈ l, Keeps s op) → Run (entry disp mask interactive sigs) v l w →
        v.act s = .command c → w.act s = .command c := by
      intro l
      induction l with
      | nil => intro v w _ hr hv; cases hr; exact hv
      | cons op l ih =>
        intro v w hk hr hv
        cases hr with
        | cons t1 t2 =>
          refine ih _ _ (fun op' hm => hk op' (by simp [hm])) t2 ?_
          have hkeep := hk op (by simp)
          cases t1 with
          | trap a d =>
            simp only [User.trap]
            rw [if_neg]
            · exact hv
            · rintro ⟨rfl, _⟩; exact hkeep.1 d rfl
          | enter lost q t => exact absurd rfl (hkeep.2 q t)
          | jobControl on => exact hv
          | arrive a => exact hv
          | execFails => exact hv
          | begin => exact hv
          | next => exact hv
          | finish => exact hv
    exact this later u1 u2 hkeep t2 hu
  have hat : s2.anyTrap = true := i2.inv.core.anyTrap s ⟨c, hu2⟩
  -- `handle_traps`
  obtain ⟨s3, l3, r3, hz, hany⟩ := i2.drain hh2 hat hn
  have hrun : Sig.run sigs (later ++ handleTraps n) s1 = some (s3, l2 ++ l3) := by
    rw [run_append]
    have r2' : Sig.run sigs later s1 = some (s2, l2) := r2
    have r3' : Sig.run sigs (handleTraps n) s2 = some (s3, l3) := r3
    rw [r2']; simp only [r3']
  have hdrain : ∀ op ∈ handleTraps n, Keeps s op := by
    intro op hop
    have hcases : op = .begin ∨ op = .finish ∨ op = .next := by
      simp only [handleTraps, List.mem_cons, List.mem_flatten] at hop
      rcases hop with hop | ⟨l, hl, hop⟩
      · exact Or.inl hop
      · rw [List.eq_of_mem_replicate hl] at hop
        simp at hop
        exact Or.inr hop
    rcases hcases with rfl | rfl | rfl <;> exact ⟨by simp, by simp⟩
  refine ⟨st, log, s3, l2 ++ l3, hr, ?_, ?_⟩
  · have r1' : Sig.step sigs st (.arrive s) = some (s1, o) := r1
    simp only [Sig.run, r1', hrun, ho, Option.toList_none, List.nil_append]
  · have := i1.persist hok hu hrec (later ++ handleTraps n) (by
      intro op hop
      rcases List.mem_append.1 hop with hop | hop
      · exact hkeep op hop
      · exact hdrain op hop) hrun
    rcases this with hm | ⟨u3, i3, ha3, hr3⟩
    · exact hm
    · exfalso
      have hmem : s ∈ sigs := by
        cases hp : s3.phantom with
        | true => exact absurd ⟨c, ha3⟩ (i3.inv.ghost.ghost hp s).1
        | false =>
          obtain ⟨h1, h2⟩ := (i3.inv.ghost.real hp s c).1 ha3
          have hv := i3.inv.core.valid s (by
            unfold hasCommand; rw [h1]
            cases c with
            | nil => exact absurd rfl h2
            | cons => rfl)
          exact hv.resolve_left hs
      rcases i3.found s hmem ⟨c, ha3⟩ hr3 with hh | ⟨r, h1, _⟩
      · rw [hany] at hh; cases hh
      · rw [hz] at h1; cases h1

/-- Signals that arrive during the execution of another trap, and one that arrives twice. -/
example : NoChildOfAction demoSigs [.trap .int (some ['x']), .trap .term (some ['y'])] (start plain (fun _ => false) false false) ∧
    (∀ op ∈ [Op.arrive .term, .begin, .next, .arrive .int, .finish, .next, .next, .finish], Keeps .int op) ∧
    ((run demoSigs ([.trap .int (some ['x']), .trap .term (some ['y']), .arrive .int, .arrive .term, .begin, .next, .arrive .int,
      .finish, .next, .next, .finish] ++ handleTraps 24) (start plain (fun _ => false) false false)).map (·.2)) =
      some [(.int, ['x']), (.term, ['y']), (.int, ['x'])] := by
  refine ⟨⟨by simp, fun _ _ _ => ⟨by simp, fun _ _ _ => trivial⟩⟩, ?_, by decide⟩
  intro op hop
  simp only [List.mem_cons, List.not_mem_nil, or_false] at hop
  rcases hop with rfl | rfl | rfl | rfl | rfl | rfl | rfl | rfl <;> exact ⟨by simp, by simp⟩

/-- C53: a trap is not executed more often than its signal arrives. -/
theorem C53_no_spurious {disp : Signal → Disp} (hd : Initial disp) (mask : Signal → Bool) (interactive jobs : Bool)
    (sigs : List Signal) (ops : List Op) (s : Signal) :
    ∃ st log, run sigs ops (start disp mask interactive jobs) = some (st, log) ∧
      (log.filter (fun x => decide (x.1 = s))).length ≤ arrivals s ops := by
  obtain ⟨h, hok, hrec, _⟩ := start_full (e := entry disp mask interactive sigs) disp hd.notCaught ⟨hd.exit, hd.kill, hd.stop⟩ mask
    interactive jobs sigs rfl rfl rfl
  obtain ⟨st, log, u, hr, _⟩ := h.run hok ops
  refine ⟨st, log, hr, ?_⟩
  have key : ∀ (ops : List Op) (u : User) (st st' : State) (log : List (Signal × Str)),
      Full (entry disp mask interactive sigs) u st → Sig.run sigs ops st = some (st', log) →
      (log.filter (fun x => decide (x.1 = s))).length ≤ arrivals s ops + (if st.received s = true then 1 else 0) := by
    intro ops
    induction ops with
    | nil => intro u st st' log _ hr; simp only [Sig.run, Option.some.injEq, Prod.mk.injEq] at hr; rw [← hr.2]; simp
    | cons op ops ih =>
      intro u st st' log h hr
      obtain ⟨s1, o, u1, r1, t1, i1, f1, _⟩ := h.step hok op
      have r1' : Sig.step sigs st op = some (s1, o) := r1
      simp only [Sig.run, r1'] at hr
      cases hx : Sig.run sigs ops s1 with
      | none => rw [hx] at hr; cases hr
      | some x =>
        obtain ⟨s2, l2⟩ := x
        rw [hx] at hr
        simp only [Option.some.injEq, Prod.mk.injEq] at hr
        obtain ⟨rfl, rfl⟩ := hr
        have := ih u1 s1 s2 l2 i1 hx
        have harr : arrivals s (op :: ops) = arrivals s ops + (if op = .arrive s then 1 else 0) := by
          simp only [arrivals, List.count_cons, beq_iff_eq]
        rw [harr, List.filter_append, List.length_append]
        have hrs : (if s1.received s = true then 1 else 0) ≤ (if st.received s = true then 1 else 0) +
            (if op = .arrive s then 1 else 0) := by
          by_cases h1 : s1.received s = true
          · rw [if_pos h1]
            rcases f1.received s h1 with h2 | h2
            · rw [if_pos h2]; omega
            · rw [if_pos h2.1]; omega
          · rw [if_neg h1]; omega
        cases o with
        | none => simp only [Option.toList_none, List.filter_nil, List.length_nil]; omega
        | some y =>
          obtain ⟨a, c⟩ := y
          obtain ⟨o1, o2, _⟩ := f1.out a c rfl
          by_cases has : a = s
          · subst has
            rw [o2] at this
            simp only [Bool.false_eq_true, if_false] at this
            rw [if_pos o1]
            simp; omega
          · simp [has]; omega
  have := key ops _ _ st log h hr
  rw [hrec] at this
  simpa using this

/-- C53: what is executed is the command that has been set last for the signal. -/
theorem C53_current_command {disp : Signal → Disp} (hd : Initial disp) (mask : Signal → Bool) (interactive jobs : Bool)
    (sigs : List Signal) (ops : List Op) {st st' : State} {log : List (Signal × Str)}
    (hr : run sigs ops (start disp mask interactive jobs) = some (st, log)) (op : Op) (s : Signal) (c : Str)
    (hs : step sigs st op = some (st', some (s, c))) :
    ((User.start (entry disp mask interactive sigs) jobs).run (entry disp mask interactive sigs) ops).act s = .command c := by
  obtain ⟨h, hok, _⟩ := start_full (e := entry disp mask interactive sigs) disp hd.notCaught ⟨hd.exit, hd.kill, hd.stop⟩ mask
    interactive jobs sigs rfl rfl rfl
  obtain ⟨st1, log1, u, hr1, ht, hf, _⟩ := h.run hok ops
  have hr1' : Sig.run sigs ops (start disp mask interactive jobs) = some (st1, log1) := hr1
  rw [hr] at hr1'
  cases hr1'
  exact (((Agree.refl _).run ht).act s c).1 ((step_facts hf.inv hok op hs).out s c rfl).2.2

example : ((run demoSigs [.trap .int (some ['x']), .arrive .int, .begin] (start plain (fun _ => false) false false)).bind fun x =>
    (step demoSigs x.1 .next).map (·.2)) = some (some (.int, ['x'])) := by decide

theorem handleTraps_nothing (sigs : List Signal) (n : Nat) (st : State) (h1 : st.handled = true) (h2 : st.scan = none) :
    ∃ st', run sigs (handleTraps n) st = some (st', []) := by
  have hb : beginTraps sigs st = st := by unfold beginTraps; simp [h1]
  have key : ∀ (n : Nat) (st : State), st.scan = none →
      ∃ st', run sigs (List.replicate n [Op.finish, Op.next]).flatten st = some (st', []) := by
    intro n
    induction n with
    | zero => intro st _; exact ⟨st, rfl⟩
    | succ n ih =>
      intro st hs
      obtain ⟨st', h⟩ := ih { st with running := false } hs
      refine ⟨st', ?_⟩
      rw [List.replicate_succ, List.flatten_cons, run_append]
      have : run sigs [Op.finish, Op.next] st = some ({ st with running := false }, []) := by
        simp [run, step, nextTrap, hs]
      rw [this]; simp only [h]; rfl
  obtain ⟨st', h⟩ := key n st h2
  exact ⟨st', by simp [handleTraps, run, step, hb, h]⟩

/-- C53 needs its hypothesis: in a subshell that is started by an action, traps that are set are never executed. -/
theorem C53_child_of_action : ∃ (ops : List Op) (s : Signal) (c : Str),
    ((User.start (entry plain (fun _ => false) false demoSigs) false).run (entry plain (fun _ => false) false demoSigs) ops).act s =
      .command c ∧
    ∀ n, ∃ st log st', run demoSigs ops (start plain (fun _ => false) false false) = some (st, log) ∧
      run demoSigs (.arrive s :: handleTraps n) st = some (st', []) := by
  refine ⟨[.trap .int (some ['x']), .arrive .int, .begin, .next, .enter false false, .trap .term (some ['y'])], .term, ['y'],
    by decide, ?_⟩
  intro n
  cases hr : run demoSigs [.trap .int (some ['x']), .arrive .int, .begin, .next, .enter false false, .trap .term (some ['y'])]
    (start plain (fun _ => false) false false) with
  | none => exact absurd hr (by decide)
  | some x =>
    obtain ⟨st, log⟩ := x
    have h1 : (run demoSigs [.trap .int (some ['x']), .arrive .int, .begin, .next, .enter false false, .trap .term (some ['y'])]
      (start plain (fun _ => false) false false)).map (fun x => (x.1.handled, x.1.scan)) = some (true, none) := by decide
    rw [hr] at h1
    simp only [Option.map_some, Option.some.injEq, Prod.mk.injEq] at h1
    have h2 : (if st.disp .term = .catch then sigHandler .term st else st).handled = true ∧
        (if st.disp .term = .catch then sigHandler .term st else st).scan = none := by
      split
      · exact h1
      · exact h1
    obtain ⟨st', h⟩ := handleTraps_nothing demoSigs n _ h2.1 h2.2
    exact ⟨st, log, st', rfl, by simp [run, step, h]⟩

end Yash.Sig
