import Verif.Exec.Sound
/-!
# The functions do what the semantics says: commands
-/
set_option autoImplicit false

namespace Yash.Exec
open Yash.Syntax Spec

variable {σ ω ρ ι : Type} {E : Shell σ ω ρ ι} {rec : Task ι → St σ → Res σ ω}

/-! ## Pipelines of several commands -/

theorem pipelineStatus_job (pf : Bool) (sts : List Nat) (h : sts ≠ []) :
    PipelineStatus pf (sts.map (· % 256)) (jobStatus pf sts) := by
  unfold jobStatus
  cases pf
  · simp only [Bool.not_false, if_true]
    have e := List.dropLast_concat_getLast h
    have e' : sts.getLast?.getD 0 = sts.getLast h := by
      rw [List.getLast?_eq_some_getLast h]; rfl
    rw [e']
    conv => lhs; rw [← e]
    rw [List.map_append]
    exact .last _ _ rfl
  · simp only [Bool.not_true, Bool.false_eq_true, if_false]
    cases hf : (sts.reverse.map (· % 256)).find? (· != Exit_SUCCESS) with
    | none =>
      simp only [Option.getD_none]
      refine .succeeded _ rfl ?_
      intro y hy
      rw [List.find?_eq_none] at hf
      have := hf y (by rw [List.map_reverse]; simpa using hy)
      simpa [Exit_SUCCESS] using this
    | some x =>
      simp only [Option.getD_some]
      rw [List.find?_eq_some_iff_append] at hf
      obtain ⟨hx, as, bs, e, ha⟩ := hf
      rw [List.map_reverse] at e
      have e2 := congrArg List.reverse e
      rw [List.reverse_reverse, List.reverse_append, List.reverse_cons, List.append_assoc] at e2
      rw [e2]
      refine .failed _ _ _ rfl (by simpa [Exit_SUCCESS] using hx) ?_
      intro y hy
      simpa [Exit_SUCCESS] using ha y (by simpa using hy)

theorem allExits_some (l : List (Res σ ω)) (rs : List (Nat × ω)) (h : allExits l = some rs) :
    ∃ hl : rs.length = l.length, ∀ i (hi : i < l.length), l[i] = .exit (rs[i]'(hl ▸ hi)).1 (rs[i]'(hl ▸ hi)).2 := by
  induction l generalizing rs with
  | nil => simp only [allExits, Option.some.injEq] at h; subst h; exact ⟨rfl, fun i hi => absurd hi (by simp)⟩
  | cons r l ih =>
    cases r with
    | none => simp [allExits] at h
    | ok t => simp [allExits] at h
    | exit st w =>
      simp only [allExits, Option.map_eq_some_iff] at h
      obtain ⟨rs', h', rfl⟩ := h
      obtain ⟨hl, hh⟩ := ih rs' h'
      refine ⟨by simp [hl], ?_⟩
      intro i hi
      cases i with
      | zero => rfl
      | succ i => exact hh i (by simpa using hi)

theorem becomeChild_start {s : St σ} (hs : Start s) (sh : σ) : Start (becomeChild sh s) := ⟨hs.1, Nat.zero_le _⟩

theorem becomeChild_ctx (s : St σ) (sh : σ) : ctxOf (becomeChild sh s) = (ctxOf s).fresh := rfl

theorem sound_many (h : Sound E rec) (hE : Lawful E) (cs : List Command) (self : Bool) (s : St σ) (hs : Start s)
    (h2 : 2 ≤ cs.length) : Good E self s (.cmds cs) (commands E rec cs self s) := by
  intro hn
  obtain ⟨x, y, rest, rfl⟩ : ∃ x y rest, cs = x :: y :: rest := by
    match cs, h2 with
    | x :: y :: rest, _ => exact ⟨x, y, rest, rfl⟩
  generalize hcs : x :: y :: rest = cs at h2
  have hexp : commands E rec cs self s =
      match allExits (cs.zipIdx.map fun ci => rec (.one ci.1 true) (becomeChild (E.enterPipe cs ci.2 s.sh) s)) with
      | none => .none
      | some rs =>
        if (self && !E.jobControl s.sh && !E.anyTrap s.sh && (cs.length == 1 || !E.pipefail s.sh)) then
          .exit ((rs.map (·.1)).getLast?.getD 0) (E.pipeWorld s.sh (rs.map (·.2)))
        else
          (applyErr E true
            { s with status := jobStatus (E.pipefail s.sh) (rs.map (·.1)),
                     sh := E.join s.sh (E.pipeWorld s.sh (rs.map (·.2))) }).andThen (fin E self) := by
    subst hcs; rfl
  rw [hcs] at hn
  rw [hexp] at hn ⊢
  cases hall : allExits (cs.zipIdx.map fun ci => rec (.one ci.1 true) (becomeChild (E.enterPipe cs ci.2 s.sh) s)) with
  | none => rw [hall] at hn; exact absurd rfl hn
  | some rs =>
    rw [hall] at hn
    simp only at hn ⊢
    obtain ⟨hl, hget⟩ := allExits_some _ _ hall
    simp only [List.length_map, List.length_zipIdx] at hl hget
    have key : ∀ i : Fin cs.length, ∃ o : Out σ ω,
        Sem E (fun _ => 0) (ctxOf s).fresh (.command cs[i]) s.status (E.enterPipe cs i s.sh) o ∧
        o.finish E = ((rs[i.1]'(by rw [hl]; exact i.2)).1 % 256, (rs[i.1]'(by rw [hl]; exact i.2)).2) := by
      intro i
      have hi := hget i.1 i.2
      simp only [List.getElem_map, List.getElem_zipIdx, Nat.zero_add] at hi
      obtain ⟨o, ho, hr⟩ := h.one cs[i] true (becomeChild (E.enterPipe cs i s.sh) s) (becomeChild_start hs _)
        (by rw [show cs[i] = cs[i.1] from rfl, hi]; simp)
      rw [show cs[i] = cs[i.1] from rfl, hi] at hr
      exact ⟨o, ho, by simpa [Rel] using hr⟩
    let os : List (Out σ ω) := List.ofFn fun i => Classical.choose (key i)
    have hos : os.length = cs.length := by simp [os]
    have hg : ∀ i (hi : i < cs.length), os[i]'(hos ▸ hi) = Classical.choose (key ⟨i, hi⟩) := by
      intro i hi; simp [os]
    have e1 : (os.map fun o => (o.finish E).1) = (rs.map (·.1)).map (· % 256) := by
      apply List.ext_getElem
      · simp [hos, hl]
      · intro i h1 h2'
        simp only [List.length_map, hos] at h1
        simp only [List.getElem_map]
        rw [hg i h1, (Classical.choose_spec (key ⟨i, h1⟩)).2]
    have e2 : (os.map fun o => (o.finish E).2) = rs.map (·.2) := by
      apply List.ext_getElem
      · simp [hos, hl]
      · intro i h1 h2'
        simp only [List.length_map, hos] at h1
        simp only [List.getElem_map]
        rw [hg i h1, (Classical.choose_spec (key ⟨i, h1⟩)).2]
    have hne : rs.map (·.1) ≠ [] := by
      intro e
      have := congrArg List.length e
      simp [hl] at this
      rw [this] at h2; simp at h2
    have hsem := Sem.cmds_many (E := E) (q := fun _ => 0) (ctxOf s) cs s.status
      (jobStatus (E.pipefail s.sh) (rs.map (·.1))) s.sh os hos h2
      (fun i hi => by rw [hg i hi]; exact (Classical.choose_spec (key ⟨i, hi⟩)).1)
      (by rw [e1]; exact pipelineStatus_job _ _ hne)
    rw [e2] at hsem
    refine ⟨_, hsem, ?_⟩
    split
    · rename_i hshort
      simp only [Bool.and_eq_true, Bool.not_eq_true', Bool.or_eq_true, beq_iff_eq] at hshort
      obtain ⟨⟨⟨rfl, _⟩, _⟩, hpf⟩ := hshort
      have hpf : E.pipefail s.sh = false := by
        rcases hpf with e | e
        · omega
        · exact e
      simp only [Rel, if_true]
      rw [finish_checked, hE.join, hpf]
      simp [jobStatus]
    · exact (applyErr_checked (sig := .normal) (s := s)
        (t := { s with status := jobStatus (E.pipefail s.sh) (rs.map (·.1)),
                       sh := E.join s.sh (E.pipeWorld s.sh (rs.map (·.2))) }) ⟨rfl, rfl, rfl, rfl⟩ hs).fin

theorem sound_single (h : Sound E rec) (c : Command) (self : Bool) (s : St σ) (hs : Start s) :
    Good E self s (.cmds [c]) (commands E rec [c] self s) := by
  intro hn
  simp only [commands] at hn ⊢
  generalize hsh : (self && !E.jobControl s.sh && !E.anyTrap s.sh && ([c].length == 1 || !E.pipefail s.sh)) = short at hn ⊢
  obtain ⟨o, ho, hr⟩ := h.one c short s hs (andThen_ne hn)
  have hsem : Sem E (fun _ => 0) (ctxOf s) (.cmds [c]) s.status s.sh (if errCondition c then o.checked E (ctxOf s) else o) := by
    cases hb : errCondition c
    · exact .cmds_compound _ _ _ _ _ (fun hx => by rw [(errCondition_basic c).2 hx] at hb; cases hb) ho
    · exact .cmds_basic _ _ _ _ _ ((errCondition_basic c).1 hb) ho
  refine ⟨_, hsem, ?_⟩
  cases short
  · rcases hr.cases_false with ⟨st, w, hre, rfl⟩ | ⟨t, sig, hre, rfl, hsm, hp⟩
    · rw [hre]
      have : (if errCondition c then (Out.exit st w : Out σ ω).checked E (ctxOf s) else .exit st w) = .exit st w := by
        split <;> rfl
      rw [this]; exact Rel.exit _ _
    · rw [hre]
      simp only [Res.andThen]
      cases hb : errCondition c
      · rw [applyErr_false]; exact rel_fin hsm hp
      · exact (applyErr_checked hsm hp).fin
  · simp only [Bool.and_eq_true] at hsh
    obtain ⟨⟨⟨rfl, _⟩, _⟩, _⟩ := hsh
    generalize rec (.one c true) s = r at hr hn
    cases r with
    | none => exact absurd hr (by simp [Rel])
    | exit st w =>
      simp only [Rel, if_true, Res.andThen] at hr ⊢
      rw [← hr]
      split
      · exact finish_out_checked _ _
      · rfl
    | ok t => cases o with
      | done sig st sh => exact absurd hr.1 (by simp)
      | exit st w => exact absurd hr (by simp [Rel])

theorem sound_commands (h : Sound E rec) (hE : Lawful E) (cs : List Command) (self : Bool) (s : St σ) (hs : Start s) :
    Good E self s (.cmds cs) (commands E rec cs self s) := by
  match cs with
  | [] => exact fun hn => absurd rfl hn
  | [c] => exact sound_single h c self s hs
  | x :: y :: rest => exact sound_many h hE _ self s hs (by simp)

/-! ## Redirections -/

theorem redirsOf_eq (c : Command) : redirsOf c = redirections c := by cases c <;> rfl

/-- A result whose state is changed afterwards, before the process may end. -/
theorem Rel.after {fe fe' : Bool} {s : St σ} {r : Res σ ω} {o : Out σ ω} {f : Nat → σ → σ} {g : St σ → St σ}
    (h : Rel E fe' s r o) (hfe : fe' = true → fe = true) (hf : ∀ st s, E.final (f st s) = E.final s)
    (hg : ∀ t, g t = { t with sh := f t.status t.sh }) :
    Rel E fe s (r.andThen fun t => Exec.fin E fe (g t)) (o.after f) := by
  cases r with
  | none => exact h
  | exit st w =>
    simp only [Res.andThen, Rel] at h ⊢
    cases fe' <;> cases fe
    · simp at h ⊢; subst h; rfl
    · simp at h ⊢; subst h; rfl
    · simp at hfe
    · simp at h ⊢; rw [finish_after f hf, h]
  | ok t =>
    cases o with
    | done sig st sh =>
      obtain ⟨_, h⟩ := h
      have hp : Pend (g t) sig := by rw [hg]; have := h.pend; cases sig <;> exact this
      have hs : Same s (g t) := by rw [hg]; exact ⟨h.same.1, h.same.2, h.same.3, h.same.4⟩
      have := rel_fin (E := E) (fe := fe) hs hp
      rw [hg] at this
      simp only [Res.andThen, Out.after, ← h.status, ← h.state]
      rw [hg]
      exact this
    | exit st w => exact absurd h (by simp [Rel])

theorem sound_one (h : Sound E rec) (hE : Lawful E) (c : Command) (fe : Bool) (s : St σ) (hs : Start s) :
    Good E fe s (.command c) (one E rec c fe s) := by
  intro hn
  by_cases hc : ∃ r a w, c = .simple r a w
  · obtain ⟨r, a, w, rfl⟩ := hc
    simp only [one] at hn ⊢
    obtain ⟨o, ho, hr⟩ := h.simple r a w fe s hs (andThen_ne hn)
    exact ⟨o, ho, hr.fin'⟩
  · have hc' : ∀ r a w, c ≠ .simple r a w := fun r a w e => hc ⟨r, a, w, e⟩
    have e : one E rec c fe s =
        match E.redirect (redirsOf c) s.status s.sh with
        | (sh, saved, true) =>
          (rec (.nonsimple c (fe && E.nothingSaved saved)) { s with sh := sh }).andThen fun s =>
          fin E fe { s with sh := E.undo saved s.sh }
        | (sh, saved, false) =>
          (applyErr E true { s with status := Exit_REDIRERR, sh := E.undo saved sh }).andThen (fin E fe) := by
      cases c <;> first | rfl | exact absurd rfl (hc' _ _ _)
    rw [e] at hn ⊢
    rw [redirsOf_eq] at hn ⊢
    rcases he : E.redirect (redirections c) s.status s.sh with ⟨sh, saved, ok⟩
    rw [he] at hn
    cases ok
    · exact ⟨_, .compound_redir _ _ _ _ _ _ hc' he,
        (applyErr_checked (sig := .normal) (s := s) (t := { s with status := Exit_REDIRERR, sh := E.undo saved sh }) ⟨rfl, rfl, rfl, rfl⟩ hs).fin⟩
    · simp only at hn ⊢
      have hs' : Start { s with sh := sh } := hs
      obtain ⟨o, ho, hr⟩ := h.nonsimple c (fe && E.nothingSaved saved) { s with sh := sh } hs' (andThen_ne hn)
      refine ⟨_, .compound _ _ _ _ _ _ _ hc' he ho, ?_⟩
      have hr := Rel.same (s := s) (t := { s with sh := sh }) ⟨rfl, rfl, rfl, rfl⟩ hr
      exact hr.after (f := fun _ => E.undo saved) (g := fun t => { t with sh := E.undo saved t.sh })
        (by simp; exact fun h _ => h) (fun _ _ => hE.undo _ _) (fun _ => rfl)

/-! ## Simple commands -/

theorem fin_or_exit {fe b : Bool} {s : St σ} (h : b = true) : fin E (fe || b) s = exitWith E s.status s := by
  simp [fin, h]

theorem fin_or {fe b : Bool} {s : St σ} (h : b = false) : fin E (fe || b) s = fin E fe s := by
  simp [h]

theorem sound_withoutWords {r : List Redir} {a : List Assign} {w : List Word} (fe : Bool) {s : St σ} {sh : σ}
    (hs : Start s) (he : E.expandLine w s.status (E.resetSubst s.sh) = (sh, some [])) :
    Good E fe s (.command (.simple r a w)) (withoutWords E r a fe { s with sh := sh }) := by
  intro hn
  unfold withoutWords at hn ⊢
  simp only at hn ⊢
  rcases ha : E.assign a false false s.status sh with ⟨sh', ok⟩
  simp only [ha] at hn ⊢
  cases ok
  · refine ⟨_, .bare_error _ _ _ _ _ _ _ _ he ha, ?_⟩
    change Rel E fe s (fin E (fe || !E.interactive sh') { s with status := Exit_ASSGNERR, sh := sh' }) _
    cases hi : E.interactive sh'
    · rw [fin_or_exit (by simp)]
      simp only [shellError, hi]
      exact Rel.exit _ _
    · rw [fin_or (by simp)]
      simp only [shellError, hi, if_true]
      exact rel_fin (t := { s with status := Exit_ASSGNERR, sh := sh' }) ⟨rfl, rfl, rfl, rfl⟩ hs
  · simp only
    cases r with
    | nil =>
      exact ⟨_, .bare _ _ _ _ _ _ _ he ha,
        rel_fin (t := { s with status := E.substStatus sh', sh := sh' }) ⟨rfl, rfl, rfl, rfl⟩ hs⟩
    | cons x r =>
      simp only [List.isEmpty_cons, Bool.false_eq_true, if_false]
      rcases hr : E.redirect (x :: r) s.status (E.enter sh') with ⟨t, saved, ok⟩
      refine ⟨_, .bare_redir _ _ _ _ _ _ _ _ _ _ _ he ha (by simp) hr, ?_⟩
      have := rel_fin (E := E) (fe := fe) (sig := .normal) (s := s) (t := { s with
          status := (if ok then E.substStatus (E.undo saved t) else Exit_REDIRERR) % 256
          sh := E.join sh' (E.final (E.undo saved t)) }) ⟨rfl, rfl, rfl, rfl⟩ hs
      have e1 : t = (E.redirect (x :: r) s.status (E.enter sh')).1 := by rw [hr]
      have e2 : saved = (E.redirect (x :: r) s.status (E.enter sh')).2.1 := by rw [hr]
      have e3 : ok = (E.redirect (x :: r) s.status (E.enter sh')).2.2 := by rw [hr]
      subst e1 e2 e3
      exact this

theorem contains_slash (name : Str) : (if name.contains '/' then Kind.external name else .none) = missing name := by
  unfold missing; by_cases h : '/' ∈ name <;> simp [h]

/-- The kind of command that is executed in the end. -/
def resolve (E : Shell σ ω ρ ι) (name : Str) (argv : List Str) (k : Kind) (s : St σ) : St σ × Option Kind :=
  match k with
  | .none => findProgram E name argv s
  | k => (s, some k)

theorem findProgram_found {name : Str} (argv : List Str) {s : St σ} (hl : E.lookupProgram name s.sh ≠ .none) :
    findProgram E name argv s = (s, some (E.lookupProgram name s.sh)) := by
  unfold findProgram
  split
  · rename_i hh; exact absurd hh hl
  · rfl

theorem resolve_spec (name : Str) (argv : List Str) (k : Kind) (s : St σ) :
    Resolves E name argv s.status s.sh k (resolve E name argv k s).1.status (resolve E name argv k s).1.sh
      (resolve E name argv k s).2 ∧
    Same s (resolve E name argv k s).1 ∧ (Start s → Start (resolve E name argv k s).1) := by
  by_cases hk : k = .none
  · subst hk
    simp only [resolve]
    by_cases hl : E.lookupProgram name s.sh = .none
    · unfold findProgram
      simp only [hl]
      by_cases hp : E.posix s.sh = true
      · simp only [hp, if_true, contains_slash]
        exact ⟨.posix hl hp, Same.refl s, id⟩
      · simp only [hp, Bool.false_eq_true, if_false]
        have hp : E.posix s.sh = false := by simpa using hp
        rcases hn : E.notFound argv s.status s.sh with ⟨sh, o⟩
        cases o with
        | none =>
          simp only [contains_slash]
          exact ⟨.unhandled _ hl hp hn, ⟨rfl, rfl, rfl, rfl⟩, fun h => h⟩
        | some st => exact ⟨.handled _ _ hl hp hn, ⟨rfl, rfl, rfl, rfl⟩, fun h => h⟩
    · rw [findProgram_found argv hl]
      exact ⟨.program _ rfl hl, Same.refl s, id⟩
  · have e : resolve E name argv k s = (s, some k) := by
      unfold resolve
      split
      · exact absurd rfl hk
      · rfl
    rw [e]
    exact ⟨.found _ hk, Same.refl s, id⟩

theorem isSpecial_iff (k : Kind) : k.isSpecial = true ↔ k = .special := by
  cases k <;> simp [Kind.isSpecial]

theorem sound_withWords (h : Sound E rec) (hE : Lawful E) {r : List Redir} {a : List Assign} {w : List Word} {name : Str}
    {args : List Str} (fe : Bool) {s : St σ} {sh : σ} (hs : Start s)
    (he : E.expandLine w s.status (E.resetSubst s.sh) = (sh, some (name :: args))) :
    Good E fe s (.command (.simple r a w)) (withWords E rec r a name (name :: args) fe { s with sh := sh }) := by
  intro hn
  have hexp : withWords E rec r a name (name :: args) fe { s with sh := sh } =
      match E.redirect r s.status sh with
      | (sh, saved, false) =>
        fin E (fe || (E.posix sh && !E.interactive sh && E.isSpecial name))
          { s with status := Exit_REDIRERR, sh := E.undo saved sh }
      | (sh, saved, true) =>
        match E.assign a (!a.isEmpty && !(E.lookup name sh).isSpecial) true s.status
            (if (!a.isEmpty && !(E.lookup name sh).isSpecial) then E.openTemp sh else sh) with
        | (sh', false) =>
          fin E (fe || !E.interactive sh')
            (cleanup E saved (!a.isEmpty && !(E.lookup name sh).isSpecial) { s with status := Exit_ASSGNERR, sh := sh' })
        | (sh', true) =>
          match resolve E name (name :: args) (E.lookup name sh) { s with sh := sh' } with
          | (t, none) => fin E fe (cleanup E saved (!a.isEmpty && !(E.lookup name sh).isSpecial) t)
          | (t, some k) =>
            (rec (.invoke k (name :: args) (fe && E.nothingSaved saved)) t).andThen fun s =>
              fin E fe (afterInvoke E saved (!a.isEmpty && !(E.lookup name sh).isSpecial) s) := rfl
  rw [hexp] at hn ⊢
  rcases hr : E.redirect r s.status sh with ⟨sh1, saved, ok⟩
  rw [hr] at hn
  cases ok
  · simp only
    cases hf : (E.posix sh1 && !E.interactive sh1 && E.isSpecial name)
    · refine ⟨_, .redir_error _ _ _ _ _ _ _ _ _ _ _ he hr ?_, ?_⟩
      · intro hh; simp [hh] at hf
      · rw [fin_or rfl]
        exact rel_fin (t := { s with status := Exit_REDIRERR, sh := E.undo saved sh1 }) ⟨rfl, rfl, rfl, rfl⟩ hs
    · rw [fin_or_exit rfl]
      simp only [Bool.and_eq_true, Bool.not_eq_true'] at hf
      exact ⟨_, .redir_fatal _ _ _ _ _ _ _ _ _ _ _ he hr hf.1.1 hf.1.2 hf.2, Rel.exit _ _⟩
  · simp only at hn ⊢
    have htemp : (!a.isEmpty && !(E.lookup name sh1).isSpecial) = true ↔ a ≠ [] ∧ E.lookup name sh1 ≠ .special := by
      rw [Bool.and_eq_true, Bool.not_eq_true', Bool.not_eq_true', ← Bool.not_eq_true, ← Bool.not_eq_true, isSpecial_iff]
      simp
    generalize hte : (!a.isEmpty && !(E.lookup name sh1).isSpecial) = temp at hn htemp ⊢
    rcases ha : E.assign a temp true s.status (if temp then E.openTemp sh1 else sh1) with ⟨sh2, ok⟩
    rw [ha] at hn
    cases ok
    · simp only
      cases hi : E.interactive sh2
      · rw [fin_or_exit (by simp)]
        refine ⟨_, .assign_fatal _ _ _ _ _ _ _ _ _ _ _ _ _ he hr htemp ha hi, ?_⟩
        exact Rel.exit _ _
      · rw [fin_or (by simp)]
        refine ⟨_, .assign_error _ _ _ _ _ _ _ _ _ _ _ _ _ he hr htemp ha hi, ?_⟩
        exact rel_fin (t := cleanup E saved temp { s with status := Exit_ASSGNERR, sh := sh2 }) ⟨rfl, rfl, rfl, rfl⟩ hs
    · simp only at hn ⊢
      obtain ⟨hres, hsame, hstart⟩ := resolve_spec (E := E) name (name :: args) (E.lookup name sh1) { s with sh := sh2 }
      have hstart := hstart hs
      generalize resolve E name (name :: args) (E.lookup name sh1) { s with sh := sh2 } = p at hres hsame hstart hn ⊢
      obtain ⟨t, k⟩ := p
      replace hsame : Same s t := ⟨hsame.1, hsame.2, hsame.3, hsame.4⟩
      cases k with
      | none =>
        refine ⟨_, .handled _ _ _ _ _ _ _ _ _ _ _ _ _ _ _ he hr htemp ha hres, ?_⟩
        exact rel_fin (t := cleanup E saved temp t) ⟨hsame.1, hsame.2, hsame.3, hsame.4⟩ hstart
      | some k =>
        simp only at hn ⊢
        obtain ⟨o, ho, hro⟩ := h.invoke k (name :: args) (fe && E.nothingSaved saved) t hstart (andThen_ne hn)
        rw [hsame.ctx] at ho
        refine ⟨_, .simple _ _ _ _ _ _ _ _ _ _ _ _ _ _ _ _ _ he hr htemp ha hres ho, ?_⟩
        refine (hro.same hsame).after (g := afterInvoke E saved temp) (by simp; exact fun h _ => h) ?_ ?_
        · intro st u
          unfold restore closeTemp
          split <;> split <;> simp [hE.undo, hE.keep, hE.close, hE.reset]
        · intro u
          unfold afterInvoke restore closeTemp
          cases hx : E.execRun u.sh <;> cases hy : (u.status == Exit_SUCCESS)
          · simp
          · simp
          · simp [Exit_SUCCESS] at hy; simp [hy]
          · simp [Exit_SUCCESS] at hy; simp [hy]

theorem sound_simple (h : Sound E rec) (hE : Lawful E) (r : List Redir) (a : List Assign) (w : List Word) (fe : Bool)
    (s : St σ) (hs : Start s) : Good E fe s (.command (.simple r a w)) (simple E rec r a w fe s) := by
  intro hn
  unfold simple at hn ⊢
  rcases he : E.expandLine w s.status (E.resetSubst s.sh) with ⟨sh, o⟩
  simp only [he] at hn ⊢
  match o with
  | none =>
    exact ⟨_, .words_fail _ _ _ _ _ _ _ he,
      rel_fin (t := { s with status := Exit_EXPERROR, sh := sh }) ⟨rfl, rfl, rfl, rfl⟩ hs⟩
  | some [] => exact sound_withoutWords fe hs he hn
  | some (name :: args) => exact sound_withWords h hE fe hs he hn

end Yash.Exec
