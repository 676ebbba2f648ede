import Verif.Exec.Sound2
/-!
# The functions do what the semantics says: built-ins, compound commands, scripts
-/
set_option autoImplicit false

namespace Yash.Exec
open Yash.Syntax Spec

variable {σ ω ρ ι : Type} {E : Shell σ ω ρ ι} {rec : Task ι → St σ → Res σ ω}

/-- When the process may end in it, the result is the end of the process. -/
theorem Rel.cases_true {s : St σ} {r : Res σ ω} {o : Out σ ω} (h : Rel E true s r o) :
    ∃ st w, r = .exit st w ∧ o.finish E = (st % 256, w) := by
  cases r with
  | none => exact absurd h (by simp [Rel])
  | exit st w => exact ⟨st, w, rfl, by simpa [Rel] using h⟩
  | ok t =>
    cases o with
    | done sig st sh => exact absurd h.1 (by simp)
    | exit st w => exact absurd h (by simp [Rel])

theorem Rel.with_sh {fe : Bool} {s : St σ} {sh : σ} {r : Res σ ω} {o : Out σ ω} (h : Rel E fe { s with sh := sh } r o) :
    Rel E fe s r o := Rel.same (t := { s with sh := sh }) ⟨rfl, rfl, rfl, rfl⟩ h

/-- Failures are not noticed otherwise than by the end of the shell or by `return`. -/
theorem checked_done {c : Ctx} {st st' : Nat} {s s' : σ} {sig : Sig} (h : checked E c .normal st s = .done sig st' s') :
    s' = s ∧ (sig = .normal ∨ sig = .ret) := by
  unfold checked at h
  split at h
  · cases h
  · split at h
    · cases h; exact ⟨rfl, .inr rfl⟩
    · cases h; exact ⟨rfl, .inl rfl⟩

/-! ## Built-ins and functions -/

theorem sound_break {k : Kind} (hk : k = .special ∨ k = .builtin) (argv : List Str) {n : Nat} {s : St σ} {sh : σ} (hs : Start s)
    (hE : Lawful E) (he : E.builtin argv s.status s.sh = (sh, .brk n)) :
    Good E false s (.run k argv) (breakBuiltin E false n { s with sh := sh }) := by
  intro _
  have hn : n ≠ 0 := by intro e; subst e; exact hE.brk _ _ _ _ he
  unfold breakBuiltin
  by_cases h0 : s.loopnest = 0
  · have := Sem.no_loop (E := E) (q := fun _ => 0) (ctxOf s) k argv _ n s.status s.sh sh hk (.inl rfl) he h0
    refine ⟨_, this, ?_⟩
    simp only [h0, beq_self_eq_true, if_true]
    cases E.fatal sh
    · exact ⟨rfl, ⟨h0.symm, rfl, rfl, rfl⟩, ⟨hs.1, Nat.zero_le _⟩, rfl, rfl⟩
    · exact Rel.exit _ _
  · refine ⟨_, .break_ _ _ _ _ _ _ _ hk he h0, ?_⟩
    simp only [beq_iff_eq, h0, if_false, Bool.not_false, if_true]
    refine ⟨rfl, ⟨rfl, rfl, rfl, rfl⟩, ⟨hs.1, ?_, ?_, rfl⟩, rfl, rfl⟩
    · simp only [ctxOf]; omega
    · simp only [ctxOf]; split <;> omega

theorem sound_continue {k : Kind} (hk : k = .special ∨ k = .builtin) (argv : List Str) {n : Nat} {s : St σ} {sh : σ}
    (hs : Start s) (hE : Lawful E) (he : E.builtin argv s.status s.sh = (sh, .cont n)) :
    Good E false s (.run k argv) (breakBuiltin E true n { s with sh := sh }) := by
  intro _
  have hn : n ≠ 0 := by intro e; subst e; exact hE.cont _ _ _ _ he
  unfold breakBuiltin
  by_cases h0 : s.loopnest = 0
  · have := Sem.no_loop (E := E) (q := fun _ => 0) (ctxOf s) k argv _ n s.status s.sh sh hk (.inr rfl) he h0
    refine ⟨_, this, ?_⟩
    simp only [h0, beq_self_eq_true, if_true]
    cases E.fatal sh
    · exact ⟨rfl, ⟨h0.symm, rfl, rfl, rfl⟩, ⟨hs.1, Nat.zero_le _⟩, rfl, rfl⟩
    · exact Rel.exit _ _
  · refine ⟨_, .continue_ _ _ _ _ _ _ _ hk he h0, ?_⟩
    simp only [beq_iff_eq, h0, if_false, Bool.not_true, Bool.false_eq_true]
    refine ⟨rfl, ⟨rfl, rfl, rfl, rfl⟩, ⟨rfl, ?_, ?_, ?_, rfl⟩, rfl, rfl⟩
    · simp only [ctxOf]; omega
    · simp only [ctxOf]; omega
    · simp only [ctxOf]; split <;> omega

/-- At the top level of a function, script or subshell nothing but `return` can be under way. -/
theorem pend_top {t : St σ} {sig : Sig} (h : Pend t sig) (h0 : t.loopnest = 0) : sig = .normal ∨ sig = .ret := by
  cases sig <;> simp only [Pend] at h <;> simp
  · omega
  · omega

theorem sound_dot (h : Sound E rec) {k : Kind} (hk : k = .special ∨ k = .builtin) (argv : List Str) {code : ι}
    {args : Option (List Str)} {s : St σ} {sh : σ} (hs : Start s)
    (he : E.builtin argv s.status s.sh = (sh, .dot code args)) :
    Good E false s (.run k argv) (dotBuiltin E rec code args { s with sh := sh }) := by
  intro hn
  have key : ∀ sh1,
      (rec (.parse code false false)
        { s with loopnest := 0, breakloopnest := 0, noreturn := false, ser := false, sh := sh1 }) ≠ .none →
      ∃ o, Sem E (fun _ => 0) (ctxOf s).fresh (.script code false) s.status sh1 o ∧
        ((∃ st w, rec (.parse code false false)
            { s with loopnest := 0, breakloopnest := 0, noreturn := false, ser := false, sh := sh1 } = .exit st w ∧
            o = .exit st w) ∨
          ∃ t sig, rec (.parse code false false)
            { s with loopnest := 0, breakloopnest := 0, noreturn := false, ser := false, sh := sh1 } = .ok t ∧
            o = .done sig t.status t.sh ∧ t.see = s.see ∧ (if t.exc = .ret then Exc.none else t.exc) = .none) := by
    intro sh1 hne
    have hs1 : Start { s with loopnest := 0, breakloopnest := 0, noreturn := false, ser := false, sh := sh1 } :=
      ⟨hs.1, Nat.zero_le _⟩
    obtain ⟨o, ho, hr⟩ := h.parse code false false _ hs1 hne
    refine ⟨o, ho, ?_⟩
    rcases hr.cases_false with ⟨st, w, hre, e⟩ | ⟨t, sig, hre, e, hsm, hp⟩
    · exact .inl ⟨st, w, hre, e⟩
    · refine .inr ⟨t, sig, hre, e, hsm.3, ?_⟩
      rcases pend_top hp hsm.1 with rfl | rfl
      · rw [hp.1]; rfl
      · rw [hp.1]; rfl
  cases args with
  | none =>
    simp only [dotBuiltin] at hn ⊢
    obtain ⟨o, ho, ⟨st, w, hre, rfl⟩ | ⟨t, sig, hre, rfl, h1, h2⟩⟩ := key sh (andThen_ne hn)
    · rw [hre]; exact ⟨_, .dot_exit _ _ _ none _ _ _ _ _ _ hk he ho, Rel.exit _ _⟩
    · rw [hre]
      exact ⟨_, .dot _ _ _ _ _ _ _ _ _ _ hk he ho, rfl, ⟨rfl, rfl, h1, rfl⟩, ⟨h2, hs.2⟩, rfl, rfl⟩
  | some args =>
    simp only [dotBuiltin] at hn ⊢
    obtain ⟨o, ho, ⟨st, w, hre, rfl⟩ | ⟨t, sig, hre, rfl, h1, h2⟩⟩ := key (E.openEnv args sh) (andThen_ne hn)
    · rw [hre]; exact ⟨_, .dot_exit _ _ _ (some args) _ _ _ _ _ _ hk he ho, Rel.exit _ _⟩
    · rw [hre]
      exact ⟨_, .dot_args _ _ _ _ _ _ _ _ _ _ _ hk he ho, rfl, ⟨rfl, rfl, h1, rfl⟩, ⟨h2, hs.2⟩, rfl, rfl⟩

theorem sound_callBuiltin (h : Sound E rec) (hE : Lawful E) {k : Kind} (hk : k = .special ∨ k = .builtin) (argv : List Str)
    {s : St σ} (hs : Start s) : Good E false s (.run k argv) (callBuiltin E rec argv s) := by
  unfold callBuiltin
  rcases he : E.builtin argv s.status s.sh with ⟨sh, act⟩
  simp only
  have hs' : Start { s with sh := sh } := hs
  cases act with
  | done st => exact fun _ => ⟨_, .builtin _ _ _ _ _ _ _ hk he, rfl, ⟨rfl, rfl, rfl, rfl⟩, hs, rfl, rfl⟩
  | brk n => exact sound_break hk argv hs hE he
  | cont n => exact sound_continue hk argv hs hE he
  | ret st =>
    intro _
    simp only [returnBuiltin]
    by_cases hi : s.noreturn = true ∧ E.interactive sh = true
    · refine ⟨_, .return_error _ _ _ _ _ _ _ hk he hi.1 hi.2, ?_⟩
      simp only [hi.1, hi.2, Bool.and_self, if_true]
      exact ⟨rfl, ⟨rfl, hi.1.symm, rfl, rfl⟩, hs, rfl, rfl⟩
    · refine ⟨_, .return_ _ _ _ _ _ _ _ hk he hi, ?_⟩
      rw [if_neg (by simpa using hi)]
      exact ⟨rfl, ⟨rfl, rfl, rfl, rfl⟩, ⟨rfl, hs.2⟩, rfl, rfl⟩
  | exit st => exact fun _ => ⟨_, .exit_ _ _ _ _ _ _ _ hk he, Rel.exit _ _⟩
  | eval code =>
    intro hn
    obtain ⟨o, ho, hr⟩ := h.parse code false false _ hs' hn
    have hr := Rel.with_sh hr
    exact ⟨o, .eval _ _ _ _ _ _ _ _ hk he ho, hr⟩
  | dot code args => exact sound_dot h hk argv hs he
  | run k' argv' =>
    intro hn
    obtain ⟨o, ho, hr⟩ := h.invoke k' argv' false _ hs' hn
    have hr := Rel.with_sh hr
    exact ⟨o, .run_command _ _ _ _ _ _ _ _ _ hk he ho, hr⟩

theorem sound_invoke (h : Sound E rec) (hE : Lawful E) (k : Kind) (argv : List Str) (fe : Bool) (s : St σ) (hs : Start s) :
    Good E fe s (.run k argv) (invoke E rec k argv fe s) := by
  intro hn
  cases k with
  | none =>
    exact ⟨_, .run_none _ _ _ _, rel_fin (t := { s with status := Exit_NOTFOUND }) ⟨rfl, rfl, rfl, rfl⟩ hs⟩
  | external path =>
    have hexp : invoke E rec (.external path) argv fe s =
      match E.external path argv s.sh with
      | (st, w) => if fe then .exit st w else .ok { s with status := st, sh := E.join s.sh w } := rfl
    rw [hexp]
    rcases he : E.external path argv s.sh with ⟨st, w⟩
    refine ⟨_, .run_external _ _ _ _ _ _ _ he, ?_⟩
    cases fe
    · exact ⟨rfl, ⟨rfl, rfl, rfl, rfl⟩, hs, rfl, rfl⟩
    · simp [Rel, Out.finish, hE.join]
  | special =>
    obtain ⟨o, ho, hr⟩ := sound_callBuiltin h hE (.inl rfl) argv hs (andThen_ne hn)
    exact ⟨o, ho, hr.fin⟩
  | builtin =>
    obtain ⟨o, ho, hr⟩ := sound_callBuiltin h hE (.inr rfl) argv hs (andThen_ne hn)
    exact ⟨o, ho, hr.fin⟩
  | function body =>
    obtain ⟨o, ho, hr⟩ := h.func body argv.tail fe s hs (andThen_ne hn)
    exact ⟨o, .run_function _ _ _ _ _ _ ho, hr.fin'⟩

theorem sound_func (h : Sound E rec) (hE : Lawful E) (body : Command) (args : List Str) (fe : Bool) (s : St σ) (hs : Start s) :
    Good E fe s (.call body args) (funcBody E rec body args fe s) := by
  intro hn
  unfold funcBody at hn ⊢
  have hs1 : Start { s with loopnest := 0, breakloopnest := 0, noreturn := false, ser := false, sh := E.openEnv args s.sh } :=
    ⟨hs.1, Nat.zero_le _⟩
  obtain ⟨o, ho, hr⟩ := h.commands [body] fe _ hs1 (andThen_ne hn)
  have hc : ctxOf { s with loopnest := 0, breakloopnest := 0, noreturn := false, ser := false, sh := E.openEnv args s.sh } =
      (ctxOf s).fresh := rfl
  rw [hc] at ho
  cases fe
  · rcases hr.cases_false with ⟨st, w, hre, rfl⟩ | ⟨t, sig, hre, rfl, hsm, hp⟩
    · rw [hre]
      exact ⟨_, .call_exit _ _ _ _ _ _ _ ho, Rel.exit _ _⟩
    · rw [hre]
      simp only [Res.andThen]
      have hexc : (if t.exc = .ret then Exc.none else t.exc) = .none := by
        rcases pend_top hp (hsm.1) with rfl | rfl
        · rw [hp.1]; rfl
        · rw [hp.1]; rfl
      rw [hexc]
      exact ⟨_, .call _ _ _ _ _ _ _ _ ho, rfl, ⟨rfl, rfl, hsm.3, rfl⟩, ⟨rfl, hs.2⟩, rfl, rfl⟩
  · obtain ⟨st, w, hre, hf⟩ := hr.cases_true
    rw [hre]
    cases o with
    | done sig st' sh =>
      refine ⟨_, .call _ _ _ _ _ _ _ _ ho, ?_⟩
      simpa [Rel, Res.andThen, Out.finish, hE.close] using hf
    | exit st' w' =>
      refine ⟨_, .call_exit _ _ _ _ _ _ _ ho, ?_⟩
      simpa [Rel, Res.andThen] using hf

/-! ## `if` -/

theorem sound_cond (h : Sound E rec) (l : List AndOr) (s : St σ) (hs : Start s) (hn : cond rec l s ≠ .none) :
    ∃ o, Sem E (fun _ => 0) (ctxOf s).examined (.list l) s.status s.sh o ∧ Rel E false s (cond rec l s) o := by
  cases l with
  | nil => exact ⟨_, .list_nil _ _ _, rfl, Same.refl s, hs, rfl, rfl⟩
  | cons a l =>
    simp only [cond] at hn ⊢
    have hs1 : Start { s with see := true, ser := true } := hs
    obtain ⟨o, ho, hr⟩ := h.lists (a :: l) false _ hs1 (andThen_ne hn)
    have hc : ctxOf { s with see := true, ser := true } = (ctxOf s).examined := rfl
    rw [hc] at ho
    rcases hr.cases_false with ⟨st, w, hre, rfl⟩ | ⟨t, sig, hre, rfl, hsm, hp⟩
    · rw [hre]; exact ⟨_, ho, Rel.exit _ _⟩
    · rw [hre]
      refine ⟨_, ho, rfl, ⟨hsm.1, hsm.2, rfl, rfl⟩, ?_, rfl, rfl⟩
      cases sig <;> exact hp

theorem condValue_iff (l : List AndOr) (t : St σ) : condValue l t = true ↔ Holds l t.status := by
  simp [condValue, Holds, Exit_SUCCESS]

theorem sound_ifs (h : Sound E rec) (cl : List IfClause) (fe : Bool) (s : St σ) (hs : Start s) :
    Good E fe s (.ifs cl) (ifs E rec cl fe s) := by
  intro hn
  match cl with
  | [] => exact ⟨_, .ifs_nil _ _ _, rel_fin (t := { s with status := Exit_SUCCESS }) ⟨rfl, rfl, rfl, rfl⟩ hs⟩
  | .els body :: rest =>
    simp only [ifs, hs.needBreak, Bool.false_eq_true, if_false] at hn ⊢
    obtain ⟨o, ho, hr⟩ := h.lists body fe s hs hn
    exact ⟨o, .ifs_else _ _ _ _ _ _ ho, hr⟩
  | .cond c body :: rest =>
    simp only [ifs, hs.needBreak, Bool.false_eq_true, if_false] at hn ⊢
    obtain ⟨o, ho, hr⟩ := h.cond c s hs (andThen_ne hn)
    rcases hr.cases_false with ⟨st, w, hre, rfl⟩ | ⟨t, sig, hre, rfl, hsm, hp⟩
    · rw [hre]; exact ⟨_, .ifs_exit _ _ _ _ _ _ _ _ ho, Rel.exit _ _⟩
    · rw [hre] at hn ⊢
      simp only [Res.andThen] at hn ⊢
      by_cases hsig : sig = .normal
      · subst hsig
        by_cases hh : condValue c t = true
        · rw [if_pos hh] at hn ⊢
          obtain ⟨o', ho', hr'⟩ := h.lists body fe t hp hn
          rw [hsm.ctx] at ho'
          exact ⟨o', .ifs_then _ _ _ _ _ _ _ _ _ ho ((condValue_iff c t).1 hh) ho', hr'.same hsm⟩
        · rw [if_neg hh] at hn ⊢
          obtain ⟨o', ho', hr'⟩ := h.ifs rest fe t hp hn
          rw [hsm.ctx] at ho'
          exact ⟨o', .ifs_next _ _ _ _ _ _ _ _ _ ho (fun x => hh ((condValue_iff c t).2 x)) ho', hr'.same hsm⟩
      · have hb := (Same.signal hp).2 hsig
        have hsem := Sem.ifs_signal (ctxOf s) c body rest sig s.status t.status s.sh t.sh ho hsig
        have hc : c ≠ [] := by
          intro e; subst e
          generalize hO : Out.done sig t.status t.sh = o at ho
          cases ho
          injection hO with h1
          exact hsig h1
        by_cases hh : condValue c t = true
        · rw [if_pos hh] at hn ⊢
          have h0 : t.status = 0 := ((condValue_iff c t).1 hh).resolve_left hc
          rcases h.listsStop body fe t hb with e | e
          · exact absurd e hn
          · rw [e]
            rw [if_neg (by simp [h0])] at hsem
            exact ⟨_, hsem, rel_fin hsm hp⟩
        · rw [if_neg hh] at hn ⊢
          have h0 : t.status ≠ 0 := fun e => hh ((condValue_iff c t).2 (.inr e))
          cases rest with
          | nil =>
            rw [if_pos ⟨h0, rfl⟩] at hsem
            rcases h.ifsNil fe t with e | e
            · exact absurd e hn
            · rw [e]
              refine ⟨_, hsem, rel_fin (t := { t with status := 0 }) ⟨hsm.1, hsm.2, hsm.3, hsm.4⟩ ?_⟩
              cases sig
              · exact hp
              · exact absurd hp.2.2.2 h0
              · exact absurd hp.2.2.2.2 h0
              · exact hp
          | cons x rest =>
            rw [if_neg (by simp)] at hsem
            rcases h.ifsStop (x :: rest) fe t hb (by simp) with e | e
            · exact absurd e hn
            · rw [e]; exact ⟨_, hsem, rel_fin hsm hp⟩

theorem sound_ifsStop (cl : List IfClause) (fe : Bool) (s : St σ) (hs : needBreak s = true) (hc : cl ≠ []) :
    ifs E rec cl fe s = fin E fe s := by
  match cl with
  | [] => exact absurd rfl hc
  | .els body :: rest => simp [ifs, hs]
  | .cond c body :: rest => simp [ifs, hs]

/-! ## Loops -/

theorem inLoop_outside {s : St σ} (h : 0 < s.loopnest) : (ctxOf (outside s)).inLoop = ctxOf s := by
  simp only [ctxOf, outside, Ctx.inLoop]
  congr 1
  omega

theorem checkLoop_normal {t : St σ} (hp : Pend t .normal) (next go : St σ → Res σ ω) : checkLoop t next go = go t := by
  unfold checkLoop
  rw [if_neg (by have := hp.2; omega), if_neg (by rw [hp.1]; simp), if_neg (by rw [hp.1]; simp)]

theorem checkLoop_cont {t : St σ} (hp : Pend t (.cont 1)) (next go : St σ → Res σ ω) :
    checkLoop t next go = next { t with exc := .none } := by
  unfold checkLoop
  have := hp.2.2.2.1
  rw [if_neg (by omega), if_pos hp.1]

theorem checkLoop_leave {t : St σ} {sig : Sig} (hp : Pend t sig) (h0 : 0 < t.loopnest) (ha : ¬ again sig)
    (next go : St σ → Res σ ω) : checkLoop t next go = .ok t ∧ Pend (outside t) (leave sig) := by
  unfold checkLoop
  cases sig with
  | normal => exact absurd (.inl rfl) ha
  | brk n =>
    simp only [Pend] at hp
    obtain ⟨h1, h2, h3, h4⟩ := hp
    refine ⟨by rw [if_pos (by omega)], ?_⟩
    match n, h2 with
    | 1, _ => exact ⟨h1, by simp only [outside]; omega⟩
    | n + 2, _ => exact ⟨h1, by omega, by simp only [outside]; omega, h4⟩
  | cont n =>
    simp only [Pend] at hp
    obtain ⟨h1, h2, h3, h4, h5⟩ := hp
    match n, h2, ha with
    | 1, _, ha => exact absurd (.inr rfl) ha
    | n + 2, _, _ =>
      refine ⟨by rw [if_pos (by omega)], ?_⟩
      exact ⟨h1, by omega, by simp only [outside]; omega, by simp only [outside]; omega, h5⟩
  | ret =>
    simp only [Pend] at hp
    refine ⟨?_, hp.1, by simp only [outside]; omega⟩
    rw [if_neg (by omega), if_neg (by rw [hp.1]; simp), if_pos (by rw [hp.1]; simp)]

theorem Same.outside {s t : St σ} (h : Same s t) : Same (outside s) (outside t) :=
  ⟨by simp only [Exec.outside, h.1], h.2, h.3, h.4⟩

/-- A loop that goes on in another state. -/
theorem LoopGood.go {fe : Bool} {s t : St σ} {x y : Node ι} {r : Res σ ω} (hs : Same s t) (h : LoopGood E fe t x r)
    (hx : ∀ o, Sem E (fun _ => 0) (ctxOf (outside s)) x t.status t.sh o →
      Sem E (fun _ => 0) (ctxOf (outside s)) y s.status s.sh o) : LoopGood E fe s y r := by
  intro hn
  obtain ⟨o, ho, hr⟩ := h hn
  rw [hs.outside.ctx] at ho
  refine ⟨o, hx o ho, ?_⟩
  cases r with
  | none => exact hr
  | exit st w => exact hr
  | ok u =>
    obtain ⟨sig, e, h1, h2, h3⟩ := hr
    exact ⟨sig, e, h1, hs.outside.trans h2, h3⟩

/-- After a round of a loop. -/
theorem loop_next {fe : Bool} {s t : St σ} {sig : Sig} {x y : Node ι} {f : St σ → Res σ ω} (h0 : 0 < s.loopnest) (hs : Same s t)
    (hp : Pend t sig)
    (hf : ∀ u, Start u → 0 < u.loopnest → u.status = t.status → u.sh = t.sh → LoopGood E fe u x (f u))
    (hagain : again sig → ∀ o, Sem E (fun _ => 0) (ctxOf (outside s)) x t.status t.sh o →
      Sem E (fun _ => 0) (ctxOf (outside s)) y s.status s.sh o)
    (hleave : ¬ again sig → Sem E (fun _ => 0) (ctxOf (outside s)) y s.status s.sh (.done (leave sig) t.status t.sh)) :
    LoopGood E fe s y (checkLoop t f f) := by
  have ht : 0 < t.loopnest := by rw [hs.1]; exact h0
  by_cases ha : again sig
  · rcases ha with rfl | rfl
    · rw [checkLoop_normal hp]
      exact (hf t hp ht rfl rfl).go hs (hagain (.inl rfl))
    · rw [checkLoop_cont hp]
      have hst : Start { t with exc := .none } := ⟨rfl, by have := hp.2.2.2.1; simp only; omega⟩
      exact (hf { t with exc := .none } hst ht rfl rfl).go (t := { t with exc := .none }) ⟨hs.1, hs.2, hs.3, hs.4⟩
        (hagain (.inr rfl))
  · obtain ⟨e, hl⟩ := checkLoop_leave (ω := ω) hp ht ha f f
    rw [e]
    intro _
    exact ⟨_, hleave ha, leave sig, rfl, ht, hs.outside, hl⟩

theorem sound_forLoop (h : Sound E rec) (name : Str) (ws : List Str) (body : List AndOr) (fe : Bool) (s : St σ) (hs : Start s)
    (h0 : 0 < s.loopnest) : LoopGood E fe s (.words name ws body) (forLoop E rec name ws body fe s) := by
  cases ws with
  | nil =>
    intro _
    refine ⟨_, .words_nil _ _ _ _ _, .normal, rfl, h0, Same.refl _, hs.1, ?_⟩
    have := hs.2
    simp only [outside]; omega
  | cons v vs =>
    simp only [forLoop]
    rcases he : E.setVar name v s.sh with ⟨sh, ok⟩
    cases ok
    · simp only
      intro hn
      have hp : Pend { s with status := Exit_ASSGNERR, sh := sh } .normal := hs
      have hr := applyErr_checked (E := E) (s := s) (t := { s with status := Exit_ASSGNERR, sh := sh }) ⟨rfl, rfl, rfl, rfl⟩ hp
      have hctx : (checked E (ctxOf s) .normal 2 sh : Out σ ω) = checked E (ctxOf (outside s)) .normal 2 sh := rfl
      have hr : Rel E false s (applyErr E true { s with status := Exit_ASSGNERR, sh := sh })
          (checked E (ctxOf (outside s)) .normal 2 sh) := by rw [← hctx]; exact hr
      cases hi : E.interactive sh
      · refine ⟨_, .words_fatal _ _ _ _ _ _ _ _ he hi, ?_⟩
        have : (applyErr E true { s with status := Exit_ASSGNERR, sh := sh }).andThen
            (fun s => fin E (!E.interactive s.sh) s) = .exit 2 (E.final sh) := by
          unfold applyErr
          split
          · rfl
          · split <;> simp [Res.andThen, fin, hi, exitWith, Exit_ASSGNERR]
        rw [this]
        cases fe
        · rfl
        · simp [Out.finish]
      · refine ⟨_, .words_error _ _ _ _ _ _ _ _ he hi, ?_⟩
        rcases hr.cases_false with ⟨st, w, hre, e⟩ | ⟨t, sig, hre, e, hsm, hp⟩
        · rw [hre, e]
          cases fe
          · rfl
          · simp [Out.finish, Res.andThen]
        · rw [hre]
          simp only [Res.andThen]
          obtain ⟨hsh, hsig⟩ := checked_done e
          rw [hsh, hi]
          refine ⟨sig, e, by rw [hsm.1]; exact h0, hsm.outside, ?_⟩
          rcases hsig with rfl | rfl
          · exact ⟨hp.1, by have := hp.2; simp only [outside]; omega⟩
          · exact ⟨hp.1, by have := hp.2; simp only [outside]; omega⟩
    · simp only
      have hs1 : Start { s with sh := sh } := hs
      have hg := h.lists body (fe && vs.isEmpty) _ hs1
      have hc : ctxOf { s with sh := sh } = (ctxOf (outside s)).inLoop := by rw [inLoop_outside h0]; rfl
      intro hn
      obtain ⟨o, ho, hr⟩ := hg (andThen_ne hn)
      rw [hc] at ho
      cases hfe : (fe && vs.isEmpty)
      · rw [hfe] at hr hn
        rcases hr.cases_false with ⟨st, w, hre, rfl⟩ | ⟨t, sig, hre, rfl, hsm, hp⟩
        · rw [hre]
          refine ⟨_, .words_exit _ _ _ _ _ _ _ _ _ _ he ho, ?_⟩
          cases fe
          · rfl
          · simp [Out.finish, Res.andThen]
        · rw [hre] at hn ⊢
          simp only [Res.andThen] at hn ⊢
          have hsm' : Same s t := ⟨hsm.1, hsm.2, hsm.3, hsm.4⟩
          exact loop_next (x := .words name vs body) h0 hsm' hp (fun u h1 h2 _ _ => h.forLoop name vs body fe u h1 h2)
            (fun ha o' ho' => .words_again _ _ _ _ _ _ _ _ _ _ _ _ he ho ha ho')
            (fun ha => .words_leave _ _ _ _ _ _ _ _ _ _ _ he ho ha) hn
      · rw [hfe] at hr hn
        obtain ⟨st, w, hre, hf⟩ := hr.cases_true
        simp only [Bool.and_eq_true, List.isEmpty_iff] at hfe
        obtain ⟨rfl, rfl⟩ := hfe
        rw [hre]
        cases o with
        | done sig st' sh' =>
          by_cases ha : again sig
          · refine ⟨_, .words_again _ _ _ _ _ _ _ _ _ _ _ _ he ho ha (.words_nil _ _ _ _ _), ?_⟩
            simpa [Out.finish, Res.andThen] using hf
          · refine ⟨_, .words_leave _ _ _ _ _ _ _ _ _ _ _ he ho ha, ?_⟩
            simpa [Out.finish, Res.andThen] using hf
        | exit st' w' =>
          refine ⟨_, .words_exit _ _ _ _ _ _ _ _ _ _ he ho, ?_⟩
          simpa [Out.finish, Res.andThen] using hf

theorem holds_ne (c : List AndOr) (w : Bool) (t : St σ) : (condValue c t != w) = true ↔ ¬ (Holds c t.status ↔ w = true) := by
  rw [← condValue_iff]
  cases condValue c t <;> cases w <;> simp

theorem sound_whileLoop (h : Sound E rec) (w : Bool) (c body : List AndOr) (last : Nat) (s : St σ) (hs : Start s)
    (h0 : 0 < s.loopnest) : LoopGood E false s (.loop w c body last) (whileLoop rec w c body last s) := by
  unfold whileLoop
  intro hn
  obtain ⟨o, ho, hr⟩ := h.cond c s hs (andThen_ne hn)
  rw [← inLoop_outside h0] at ho
  rcases hr.cases_false with ⟨st, x, hre, rfl⟩ | ⟨t, sig, hre, rfl, hsm, hp⟩
  · rw [hre]
    exact ⟨_, .loop_cond_exit _ _ _ _ _ _ _ _ _ ho, rfl⟩
  · rw [hre] at hn ⊢
    simp only [Res.andThen] at hn ⊢
    have ht : 0 < t.loopnest := by rw [hsm.1]; exact h0
    by_cases ha : again sig
    · rcases ha with rfl | rfl
      · rw [checkLoop_normal hp] at hn ⊢
        by_cases hv : (condValue c t != w) = true
        · rw [if_pos hv]
          exact ⟨_, .loop_end _ _ _ _ _ _ _ _ _ ho ((holds_ne c w t).1 hv), .normal, rfl, ht, ⟨hsm.outside.1, hsm.2, hsm.3, hsm.4⟩, hp.1,
            by have := hp.2; simp only [outside]; omega⟩
        · rw [if_neg hv] at hn ⊢
          have hv' : Holds c t.status ↔ w = true := Classical.not_not.1 fun hh => hv ((holds_ne c w t).2 hh)
          cases body with
          | nil =>
            simp only at hn ⊢
            refine LoopGood.go hsm (h.whileLoop w c [] last t hp ht) (fun o' ho' => ?_) hn
            exact .loop_again _ _ _ _ _ .normal _ _ _ _ _ _ _ ho hv' (.list_nil _ _ _) (.inl rfl) (by simpa using ho')
          | cons a body =>
            simp only at hn ⊢
            obtain ⟨o2, ho2, hr2⟩ := h.lists (a :: body) false t hp (andThen_ne hn)
            rw [hsm.ctx, ← inLoop_outside h0] at ho2
            rcases hr2.cases_false with ⟨st, x, hre2, rfl⟩ | ⟨u, sig2, hre2, rfl, hsm2, hp2⟩
            · rw [hre2]
              exact ⟨_, .loop_exit _ _ _ _ _ _ _ _ _ _ _ ho hv' ho2, rfl⟩
            · rw [hre2] at hn ⊢
              simp only [Res.andThen] at hn ⊢
              refine loop_next (x := .loop w c (a :: body) u.status) h0 (hsm.trans hsm2) hp2
                (fun v h1 h2 e1 _ => h.whileLoop w c (a :: body) u.status v h1 h2)
                (fun ha o' ho' => ?_) (fun ha => ?_) hn
              · exact .loop_again _ _ _ _ _ _ _ _ _ _ _ _ _ ho hv' ho2 ha (by simpa using ho')
              · exact .loop_leave _ _ _ _ _ _ _ _ _ _ _ _ ho hv' ho2 ha
      · rw [checkLoop_cont hp] at hn ⊢
        have hst : Start { t with exc := .none } := ⟨rfl, by have := hp.2.2.2.1; simp only; omega⟩
        refine LoopGood.go (t := { t with exc := .none }) ⟨hsm.1, hsm.2, hsm.3, hsm.4⟩
          (h.whileLoop w c body last _ hst ht) (fun o' ho' => ?_) hn
        exact .loop_cond_again _ _ _ _ _ _ _ _ _ _ ho ho'
    · obtain ⟨e, hl⟩ : (∀ next go : St σ → Res σ ω, checkLoop t next go = .ok t) ∧ Pend (outside t) (leave sig) :=
        ⟨fun next go => (checkLoop_leave hp ht ha next go).1, (checkLoop_leave (ω := ω) hp ht ha (fun _ => .none) fun _ => .none).2⟩
      rw [e]
      exact ⟨_, .loop_cond_leave _ _ _ _ _ _ _ _ _ _ ho ha, leave sig, rfl, ht, hsm.outside, hl⟩

/-- Leaving a loop. -/
theorem loop_fin {fe : Bool} {s : St σ} {x : Node ι} {r : Res σ ω} {sh : σ}
    (h : LoopGood E fe { s with loopnest := s.loopnest + 1, breakloopnest := s.loopnest + 1, sh := sh } x r) (hn : r ≠ .none) :
    ∃ o, Sem E (fun _ => 0) (ctxOf s) x s.status sh o ∧ Rel E fe s (r.andThen fun t => fin E fe (outside t)) o := by
  obtain ⟨o, ho, hr⟩ := h hn
  refine ⟨o, ho, ?_⟩
  cases r with
  | none => exact absurd rfl hn
  | exit st w => exact hr
  | ok t =>
    obtain ⟨sig, rfl, h1, h2, h3⟩ := hr
    exact rel_fin (t := outside t) ⟨h2.1, h2.2, h2.3, h2.4⟩ h3

/-! ## `for`, `while`, `case`, function definitions -/

theorem sound_for (h : Sound E rec) (r : List Redir) (name : Str) (words : Option (List Word)) (body : List AndOr) (fe : Bool)
    (s : St σ) (hs : Start s) : Good E fe s (.body (.fors r name words body)) (execFor E rec name words body fe s) := by
  intro hn
  have hexp : execFor E rec name words body fe s =
      match (match words with
        | some ws => E.expandLine ws s.status s.sh
        | none => (s.sh, some (E.positional s.sh))) with
      | (sh, none) =>
        (applyErr E true { s with status := Exit_EXPERROR, loopnest := s.loopnest + 1, breakloopnest := s.loopnest + 1, sh := sh }).andThen fun t => fin E fe (outside t)
      | (sh, some ws) =>
        (rec (.forLoop name ws body fe) { s with loopnest := s.loopnest + 1, breakloopnest := s.loopnest + 1, sh := sh }).andThen fun t =>
        fin E fe (outside (if ws.isEmpty && !body.isEmpty then { t with status := Exit_SUCCESS } else t)) := rfl
  rw [hexp] at hn ⊢
  -- a loop over given words
  have key : ∀ sh ws,
      ((rec (.forLoop name ws body fe) { s with loopnest := s.loopnest + 1, breakloopnest := s.loopnest + 1, sh := sh }).andThen fun t =>
        fin E fe (outside (if ws.isEmpty && !body.isEmpty then { t with status := Exit_SUCCESS } else t))) ≠ .none →
      (ws ≠ [] → ∀ o, Sem E (fun _ => 0) (ctxOf s) (.words name ws body) s.status sh o →
        Sem E (fun _ => 0) (ctxOf s) (.body (.fors r name words body)) s.status s.sh o) →
      (ws = [] → Sem E (fun _ => 0) (ctxOf s) (.body (.fors r name words body)) s.status s.sh
        (.done .normal (if body = [] then s.status else 0) sh)) →
      ∃ o, Sem E (fun _ => 0) (ctxOf s) (.body (.fors r name words body)) s.status s.sh o ∧
        Rel E fe s ((rec (.forLoop name ws body fe) { s with loopnest := s.loopnest + 1, breakloopnest := s.loopnest + 1, sh := sh }).andThen fun t =>
          fin E fe (outside (if ws.isEmpty && !body.isEmpty then { t with status := Exit_SUCCESS } else t))) o := by
    intro sh ws hn h1 h2
    have hs1 : Start { s with loopnest := s.loopnest + 1, breakloopnest := s.loopnest + 1, sh := sh } :=
      ⟨hs.1, Nat.le_refl _⟩
    cases ws with
    | nil =>
      rcases h.forNil name body fe { s with loopnest := s.loopnest + 1, breakloopnest := s.loopnest + 1, sh := sh } with e | e
      · rw [e] at hn; exact absurd rfl hn
      · rw [e]
        refine ⟨_, h2 rfl, ?_⟩
        simp only [Res.andThen]
        cases body with
        | nil =>
          exact rel_fin (t := outside { s with loopnest := s.loopnest + 1, breakloopnest := s.loopnest + 1, sh := sh })
            ⟨rfl, rfl, rfl, rfl⟩ ⟨hs.1, by simp [outside]⟩
        | cons a body =>
          exact rel_fin (t := outside { s with status := 0, loopnest := s.loopnest + 1, breakloopnest := s.loopnest + 1, sh := sh })
            ⟨rfl, rfl, rfl, rfl⟩ ⟨hs.1, by simp [outside]⟩
    | cons v vs =>
      obtain ⟨o, ho, hr⟩ := loop_fin (h.forLoop name (v :: vs) body fe _ hs1 (by simp)) (andThen_ne hn)
      exact ⟨o, h1 (by simp) o ho, hr⟩
  cases words with
  | none =>
    simp only at hn ⊢
    exact key s.sh (E.positional s.sh) hn (fun hne o ho => .for_positional _ _ _ _ _ _ _ hne ho)
      (fun he => .for_no_positional _ _ _ _ _ _ he)
  | some ws =>
    simp only at hn ⊢
    rcases he : E.expandLine ws s.status s.sh with ⟨sh, o⟩
    rw [he] at hn
    cases o with
    | none =>
      simp only
      refine ⟨_, .for_error _ _ _ _ _ _ _ _ he, ?_⟩
      have hp : Pend { s with status := Exit_EXPERROR, loopnest := s.loopnest + 1, breakloopnest := s.loopnest + 1, sh := sh }
          .normal := ⟨hs.1, Nat.le_refl _⟩
      have hr := applyErr_checked (E := E) (Same.refl _) hp
      rcases hr.cases_false with ⟨st, x, hre, e⟩ | ⟨t, sig, hre, e, hsm, hp2⟩
      · rw [hre]
        change (checked E (ctxOf s) .normal 2 sh : Out σ ω) = _ at e
        rw [e]
        exact Rel.exit _ _
      · rw [hre]
        change (checked E (ctxOf s) .normal 2 sh : Out σ ω) = _ at e
        have hsig := (checked_done e).2
        rw [e]
        refine rel_fin (t := outside t) ⟨?_, hsm.2, hsm.3, hsm.4⟩ ?_
        · have := hsm.1; simp only [outside] at this ⊢; omega
        · rcases hsig with rfl | rfl
          · exact ⟨hp2.1, by have := hp2.2; simp only [outside]; omega⟩
          · exact ⟨hp2.1, by have := hp2.2; simp only [outside]; omega⟩
    | some vs =>
      simp only at hn ⊢
      exact key sh vs hn (fun hne o ho => .for_words _ _ _ _ _ _ _ _ _ _ he hne ho)
        (fun hv => by subst hv; exact .for_none _ _ _ _ _ _ _ _ he)

theorem sound_while (h : Sound E rec) (r : List Redir) (w : Bool) (c body : List AndOr) (fe : Bool) (s : St σ) (hs : Start s) :
    Good E fe s (.body (.whiles r w c body)) (execWhile E rec w c body fe s) := by
  intro hn
  unfold execWhile at hn ⊢
  have hs1 : Start { s with loopnest := s.loopnest + 1, breakloopnest := s.loopnest + 1 } := ⟨hs.1, Nat.le_refl _⟩
  obtain ⟨o, ho, hr⟩ := loop_fin (s := s) (sh := s.sh) (h.whileLoop w c body 0 _ hs1 (by simp)) (andThen_ne hn)
  refine ⟨o, .while_ _ _ _ _ _ _ _ _ ho, ?_⟩
  have e : (rec (.whileLoop w c body Exit_SUCCESS)
      { s with loopnest := s.loopnest + 1, breakloopnest := s.loopnest + 1 }).andThen (fun s =>
        fin E fe { s with loopnest := s.loopnest - 1 }) =
      ((rec (.whileLoop w c body 0)
        { s with loopnest := s.loopnest + 1, breakloopnest := s.loopnest + 1 }).andThen fun t => fin E false (outside t)).andThen
        (fin E fe) := by
    change (rec (.whileLoop w c body 0) _).andThen _ = _
    cases rec (.whileLoop w c body 0) { s with loopnest := s.loopnest + 1, breakloopnest := s.loopnest + 1 } <;> rfl
  rw [e]
  exact hr.fin

theorem matchAny_spec (v : Str) (st : Nat) (ps : List Word) (s : σ) :
    Matches E v st ps s (matchAny E v st ps s).1 (matchAny E v st ps s).2 := by
  induction ps generalizing s with
  | nil => exact .nil _
  | cons p ps ih =>
    rcases he : E.matchOne v p st s with ⟨s', o⟩
    match o with
    | none => simp only [matchAny, he]; exact .error _ _ _ _ he
    | some true => simp only [matchAny, he]; exact .found _ _ _ _ he
    | some false => simp only [matchAny, he]; exact .next _ _ _ _ _ _ he (ih s')

/-- What is found. -/
def Found.spec : Found → Option (Option (List AndOr))
  | .fail => none
  | .body l => some (some l)
  | .nothing => some none

theorem findItem_spec (v : Str) (st : Nat) (items : List CaseItem) (s : σ) :
    Selects E v st items s (findItem E v st items s).1 (findItem E v st items s).2.spec := by
  induction items generalizing s with
  | nil => exact .nil _
  | cons x items ih =>
    obtain ⟨ps, b⟩ := x
    have hm := matchAny_spec (E := E) v st ps s
    rcases he : matchAny E v st ps s with ⟨s', o⟩
    rw [he] at hm
    match o with
    | none => simp only [findItem, he]; exact .error _ _ _ _ _ hm
    | some true => simp only [findItem, he]; exact .found _ _ _ _ _ hm
    | some false => simp only [findItem, he]; exact .next _ _ _ _ _ _ _ hm (ih s')

theorem sound_case (h : Sound E rec) (r : List Redir) (word : Word) (items : List CaseItem) (fe : Bool) (s : St σ)
    (hs : Start s) : Good E fe s (.body (.cases r word items)) (execCase E rec word items fe s) := by
  intro hn
  unfold execCase at hn ⊢
  simp only at hn ⊢
  have fail : ∀ sh, Rel E fe s ((applyErr E true { s with status := Exit_EXPERROR, sh := sh }).andThen (fin E fe))
      (checked E (ctxOf s) .normal 2 sh) := fun sh =>
    (applyErr_checked (sig := .normal) (s := s) (t := { s with status := Exit_EXPERROR, sh := sh }) ⟨rfl, rfl, rfl, rfl⟩ hs).fin
  rcases he : E.expandOne word s.status s.sh with ⟨sh, o⟩
  simp only [he] at hn ⊢
  cases o with
  | none => exact ⟨_, .case_word_error _ _ _ _ _ _ _ he, fail sh⟩
  | some v =>
    simp only at hn ⊢
    have hsel := findItem_spec (E := E) v s.status items sh
    rcases hf : findItem E v s.status items sh with ⟨sh', f⟩
    rw [hf] at hsel
    simp only [hf] at hn ⊢
    match f with
    | .fail => exact ⟨_, .case_error _ _ _ _ _ _ _ _ _ he hsel, fail sh'⟩
    | .nothing =>
      exact ⟨_, .case_none _ _ _ _ _ _ _ _ _ he hsel,
        rel_fin (t := { s with status := Exit_SUCCESS, sh := sh' }) ⟨rfl, rfl, rfl, rfl⟩ hs⟩
    | .body [] =>
      exact ⟨_, .case_empty _ _ _ _ _ _ _ _ _ he hsel,
        rel_fin (t := { s with status := Exit_SUCCESS, sh := sh' }) ⟨rfl, rfl, rfl, rfl⟩ hs⟩
    | .body (a :: l) =>
      simp only at hn ⊢
      have hs' : Start { s with sh := sh' } := hs
      obtain ⟨o, ho, hr⟩ := h.lists (a :: l) fe _ hs' (andThen_ne hn)
      have hr := Rel.with_sh hr
      exact ⟨o, .case_item _ _ _ _ _ _ _ _ _ _ _ he hsel (by simp) ho, hr.fin'⟩

theorem sound_funcdef (r : List Redir) (name : Word) (body : Command) (fe : Bool) (s : St σ) (hs : Start s) :
    Good E fe s (.body (.funcdef r name body)) (execFuncdef E name body fe s) := by
  intro hn
  unfold execFuncdef at hn ⊢
  rcases he : E.expandOne name s.status s.sh with ⟨sh, o⟩
  simp only [he] at hn ⊢
  cases o with
  | none =>
    exact ⟨_, .funcdef_error _ _ _ _ _ _ _ he,
      rel_fin (t := { s with status := Exit_EXPERROR, sh := sh }) ⟨rfl, rfl, rfl, rfl⟩ hs⟩
  | some n =>
    simp only at hn ⊢
    rcases hd : E.define n body sh with ⟨sh', ok⟩
    refine ⟨_, .funcdef _ _ _ _ _ _ _ _ _ _ he hd, ?_⟩
    cases ok
    · exact rel_fin (t := { s with status := Exit_ASSGNERR, sh := sh' }) ⟨rfl, rfl, rfl, rfl⟩ hs
    · exact rel_fin (t := { s with status := Exit_SUCCESS, sh := sh' }) ⟨rfl, rfl, rfl, rfl⟩ hs

theorem sound_nonsimple (h : Sound E rec) (hE : Lawful E) (c : Command) (fe : Bool) (s : St σ) (hs : Start s) :
    Good E fe s (.body c) (nonsimple E rec c fe s) := by
  intro hn
  cases c with
  | simple r a w => exact absurd rfl hn
  | group r l =>
    obtain ⟨o, ho, hr⟩ := h.lists l fe s hs hn
    exact ⟨o, .group _ _ _ _ _ _ ho, hr⟩
  | subshell r l =>
    have hst := becomeChild_start hs (E.enter s.sh)
    cases fe
    · simp only [nonsimple, Bool.false_eq_true, if_false, subshell] at hn ⊢
      have hne : rec (.lists l true) (becomeChild (E.enter s.sh) s) ≠ .none := by
        intro e; rw [e] at hn; exact hn rfl
      obtain ⟨o, ho, hr⟩ := h.lists l true _ hst hne
      obtain ⟨st, w, hre, hf⟩ := hr.cases_true
      rw [hre]
      have := Sem.subshell (ctxOf s) r l s.status s.sh o ho
      rw [hf] at this
      exact ⟨_, this, rfl, ⟨rfl, rfl, rfl, rfl⟩, hs, rfl, rfl⟩
    · simp only [nonsimple, if_true] at hn ⊢
      obtain ⟨o, ho, hr⟩ := h.lists l true _ hst hn
      obtain ⟨st, w, hre, hf⟩ := hr.cases_true
      rw [hre]
      have := Sem.subshell (ctxOf s) r l s.status s.sh o ho
      rw [hf] at this
      refine ⟨_, this, ?_⟩
      simp [Rel, Out.finish, hE.join]
  | ifs r cl =>
    obtain ⟨o, ho, hr⟩ := h.ifs cl fe s hs hn
    exact ⟨o, .if_ _ _ _ _ _ _ ho, hr⟩
  | fors r n ws l => exact sound_for h r n ws l fe s hs hn
  | whiles r w c l => exact sound_while h r w c l fe s hs hn
  | cases r w items => exact sound_case h r w items fe s hs hn
  | bracket r e =>
    have hexp : nonsimple E rec (.bracket r e) fe s =
      match E.bracket e s.status s.sh with
      | (sh, st) => fin E fe { s with status := st, sh := sh } := rfl
    rw [hexp]
    rcases he : E.bracket e s.status s.sh with ⟨sh, st⟩
    exact ⟨_, .bracket _ _ _ _ _ _ _ he, rel_fin (sig := .normal) (t := { s with status := st, sh := sh }) ⟨rfl, rfl, rfl, rfl⟩ hs⟩
  | funcdef r n x => exact sound_funcdef r n x fe s hs hn

/-! ## Scripts -/

theorem sound_parse (h : Sound E rec) (hE : Lawful E) (inp : ι) (executed fe : Bool) (s : St σ) (hs : Start s) :
    Good E fe s (.script inp executed) (parse E rec inp executed fe s) := by
  intro hn
  unfold parse at hn ⊢
  simp only [hs.needBreak, Bool.false_eq_true, if_false] at hn ⊢
  rcases he : E.parse inp s.sh with ⟨sh, p⟩
  simp only [he] at hn ⊢
  have hs' : Start { s with sh := sh } := hs
  match p with
  | .ok [] rest atEof =>
    simp only at hn ⊢
    obtain ⟨o, ho, hr⟩ := h.parse rest executed fe _ hs' hn
    exact ⟨o, .script_blank _ _ _ _ _ _ _ _ _ he ho, Rel.with_sh hr⟩
  | .ok (a :: l) rest atEof =>
    simp only at hn ⊢
    cases hx : E.executes sh
    · simp only [hx, Bool.false_eq_true, if_false] at hn ⊢
      obtain ⟨o, ho, hr⟩ := h.parse rest executed fe _ hs' hn
      exact ⟨o, .script_noexec _ _ _ _ _ _ _ _ _ _ he (by simp) hx ho, Rel.with_sh hr⟩
    · simp only [hx, if_true] at hn ⊢
      obtain ⟨o, ho, hr⟩ := h.lists (a :: l) (fe && atEof) _ hs' (andThen_ne hn)
      have hr := Rel.with_sh hr
      cases hfe : (fe && atEof)
      · rw [hfe] at hr hn
        rcases hr.cases_false with ⟨st, x, hre, rfl⟩ | ⟨t, sig, hre, rfl, hsm, hp⟩
        · rw [hre]
          exact ⟨_, .script_stop _ _ _ _ _ _ _ _ _ _ he (by simp) hx ho goesOn_exit, Rel.exit _ _⟩
        · rw [hre] at hn ⊢
          simp only [Res.andThen] at hn ⊢
          by_cases hsig : sig = .normal
          · subst hsig
            obtain ⟨o', ho', hr'⟩ := h.parse rest true fe t hp hn
            rw [hsm.ctx] at ho'
            exact ⟨o', .script_cons _ _ _ _ _ _ _ _ _ _ _ _ he (by simp) hx ho ho', hr'.same hsm⟩
          · have hb := (Same.signal hp).2 hsig
            rcases h.parseStop rest true fe t hb with e | e
            · exact absurd e hn
            · rw [e]
              exact ⟨_, .script_stop _ _ _ _ _ _ _ _ _ _ he (by simp) hx ho (fun hh => hsig (goesOn_done.1 hh)),
                rel_fin hsm hp⟩
      · rw [hfe] at hr hn
        obtain ⟨st, w, hre, hf⟩ := hr.cases_true
        simp only [Bool.and_eq_true] at hfe
        obtain ⟨rfl, rfl⟩ := hfe
        rw [hre]
        by_cases hg : o.goesOn
        · cases o with
          | exit st' w' => exact absurd hg goesOn_exit
          | done sig st' sh' =>
            have := goesOn_done.1 hg
            subst this
            obtain ⟨t', h1, h2⟩ := hE.eof _ _ _ _ _ he sh'
            refine ⟨_, .script_cons _ _ _ _ _ _ _ _ _ _ _ _ he (by simp) hx ho (.script_eof _ _ _ _ _ _ h1), ?_⟩
            simpa [Rel, Out.finish, Res.andThen, h2] using hf
        · refine ⟨_, .script_stop _ _ _ _ _ _ _ _ _ _ he (by simp) hx ho hg, ?_⟩
          simpa [Rel, Res.andThen] using hf
  | .eof =>
    exact ⟨_, .script_eof _ _ _ _ _ _ he,
      rel_fin (t := { s with status := if executed then s.status else Exit_SUCCESS, sh := sh }) ⟨rfl, rfl, rfl, rfl⟩ hs⟩
  | .syntaxError =>
    have := Sem.script_syntax (E := E) (q := fun _ => 0) (ctxOf s) inp executed s.status s.sh sh he
    refine ⟨_, this, ?_⟩
    simp only
    cases E.syntaxErrorExits sh
    · exact rel_fin (t := { s with status := Exit_SYNERROR, sh := sh }) ⟨rfl, rfl, rfl, rfl⟩ hs
    · exact Rel.exit _ _
  | .inputError =>
    exact ⟨_, .script_input _ _ _ _ _ _ he,
      rel_fin (t := { s with status := Exit_ERROR, sh := sh }) ⟨rfl, rfl, rfl, rfl⟩ hs⟩

/-! ## All together -/

/-- All functions do what the semantics says, for every bound on the depth of calls. -/
theorem sound (hE : Lawful E) (n : Nat) : Sound E (run E n) := by
  induction n with
  | zero =>
    constructor
    case cond => intro l s _ hn; exact absurd rfl hn
    all_goals intros
    all_goals first | exact .inl rfl | exact Good.none | exact fun hn => absurd rfl hn
  | succ n ih =>
    exact {
      lists := sound_lists ih
      listsStop := fun l fe s hb => .inr (sound_listsStop l fe s hb)
      chain := sound_chain ih
      behind := sound_behind ih
      commands := sound_commands ih hE
      one := sound_one ih hE
      simple := sound_simple ih hE
      invoke := sound_invoke ih hE
      func := sound_func ih hE
      nonsimple := sound_nonsimple ih hE
      ifs := sound_ifs ih
      ifsStop := fun cl fe s hb hc => .inr (sound_ifsStop cl fe s hb hc)
      ifsNil := fun fe s => .inr rfl
      cond := sound_cond ih
      forLoop := sound_forLoop ih
      forNil := fun name body fe s => .inr rfl
      whileLoop := sound_whileLoop ih
      parse := sound_parse ih hE
      parseStop := fun inp executed fe s hb => .inr (by simp [run, parse, hb]) }

end Yash.Exec
