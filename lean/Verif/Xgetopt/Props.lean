import Verif.Xgetopt.Spec
/-! # Properties C04 and C05: option parsing of built-in commands -/
set_option autoImplicit false
set_option linter.unusedSimpArgs false

namespace Yash.Xgetopt

open Spec

theorem runs_det {cfg : Config} {s : State} {rs rs' : List Report} {f f' : Final} {t t' : State}
    (h : Runs cfg s rs f t) (h' : Runs cfg s rs' f' t') : rs = rs' ∧ f = f' ∧ t = t' := by
  induction h generalizing rs' with
  | done s s' h1 => cases h' <;> simp_all
  | error s s' e h1 => cases h' <;> simp_all
  | option s s' s'' o rs f h1 h2 ih =>
    cases h' with
    | done => simp_all
    | error => simp_all
    | option _ s2 _ o2 rs2 _ h3 h4 =>
      rw [h1] at h3
      cases h3
      obtain ⟨rfl, rfl, rfl⟩ := ih h4
      exact ⟨rfl, rfl, rfl⟩

theorem runs_congr {cfg : Config} {s s2 : State} {rs : List Report} {f : Final} {t : State}
    (h : xgetopt cfg s = xgetopt cfg s2) (h' : Runs cfg s2 rs f t) : Runs cfg s rs f t := by
  cases h' with
  | done _ _ h1 => exact .done _ _ (h.trans h1)
  | error _ _ _ h1 => exact .error _ _ _ (h.trans h1)
  | option _ s' _ o rs _ h1 h2 => exact .option _ _ _ _ _ _ (h.trans h1) h2

theorem shiftLoop_spec (p : List Arg) : ∀ (sk : List Arg) (x : Arg) (r : List Arg),
    ∃ h, shiftLoop p.length (p.length + sk.length) (p ++ (sk ++ x :: r)) =
      some (p ++ h :: (sk ++ r)) := by
  intro sk
  -- induction on the reversed list
  obtain ⟨n, hn⟩ : ∃ n, sk.length = n := ⟨_, rfl⟩
  induction n generalizing sk with
  | zero =>
    intro x r
    have : sk = [] := List.eq_nil_of_length_eq_zero hn
    subst this
    refine ⟨x, ?_⟩
    simp only [List.length_nil, Nat.add_zero, List.nil_append]
    cases h : p.length with
    | zero => simp [shiftLoop]
    | succ k => simp [shiftLoop]
  | succ n ih =>
    intro x r
    obtain ⟨sk', z, rfl⟩ : ∃ sk' z, sk = sk' ++ [z] := by
      refine ⟨sk.dropLast, sk.getLast (by intro h; simp [h] at hn), ?_⟩
      rw [List.dropLast_concat_getLast]
    simp only [List.length_append, List.length_cons, List.length_nil, Nat.zero_add] at hn
    obtain ⟨h, hh⟩ := ih sk' (by omega) z (z :: r)
    refine ⟨h, ?_⟩
    have e1 : p.length + (sk' ++ [z]).length = (p.length + sk'.length) + 1 := by simp; omega
    rw [e1]
    simp only [shiftLoop]
    rw [if_pos (by omega)]
    have e2 : (p ++ (sk' ++ [z] ++ x :: r))[p.length + sk'.length]? = some z := by
      rw [List.getElem?_append_right (by omega)]
      simp
    rw [e2]
    simp only
    rw [if_pos (by simp; omega)]
    have e3 : (p ++ (sk' ++ [z] ++ x :: r)).set (p.length + sk'.length + 1) z =
        p ++ (sk' ++ z :: z :: r) := by
      rw [List.set_append_right _ _ (by omega)]
      congr 1
      have : p.length + sk'.length + 1 - p.length = (sk' ++ [z]).length := by simp; omega
      rw [this, List.set_append_right _ _ (by omega)]
      simp
    rw [e3, hh]
    simp

/-- The states reached: `p` are the arguments moved to the front, `sk` the operands skipped so far,
`rem` the arguments still to be parsed. -/
def mk (p sk rem : List Arg) (ci : Nat) (xo : Option Arg) : State :=
  { argv := p ++ (sk ++ rem), xoptind := p.length, argvindex := p.length + sk.length,
    charindex := ci, xoptarg := xo }

theorem argshift_mk (p sk : List Arg) (x : Arg) (r : List Arg) (ci : Nat) (xo : Option Arg) :
    argshift (mk p sk (x :: r) ci xo) = some (mk (p ++ [x]) sk r ci xo) := by
  obtain ⟨h, hh⟩ := shiftLoop_spec p sk x r
  have e1 : (p ++ (sk ++ x :: r))[p.length + sk.length]? = some x := by
    rw [List.getElem?_append_right (by omega)]
    simp
  simp only [argshift, mk, e1, hh]
  rw [if_pos (by omega)]
  simp
  omega

theorem searchArgv_fuel (cfg : Config) : ∀ (f : Nat) (s : State),
    s.argv.length + 1 ≤ f + s.argvindex → searchArgv cfg (f + 1) s = searchArgv cfg f s
  | 0, s, h => by
    simp only [searchArgv]
    rw [if_pos (by omega)]
  | f + 1, s, h => by
    rw [searchArgv]
    conv => rhs; rw [searchArgv]
    have := searchArgv_fuel cfg f { s with argvindex := s.argvindex + 1 } (by simp; omega)
    simp only [this]

theorem searchArgv_enough (cfg : Config) (s : State) (f k : Nat)
    (h : s.argv.length + 1 ≤ f + s.argvindex) : searchArgv cfg (f + k) s = searchArgv cfg f s := by
  induction k with
  | zero => rfl
  | succ k ih => rw [← Nat.add_assoc, searchArgv_fuel cfg (f + k) s (by omega), ih]

/-- One call of `xgetopt` at an argument. -/
theorem xgetopt_cons (cfg : Config) (p sk : List Arg) (a : Arg) (rest : List Arg) (ci : Nat)
    (xo : Option Arg) :
    xgetopt cfg (mk p sk (a :: rest) ci xo) =
      match a with
      | '-' :: '-' :: _ => parseLong cfg a (mk p sk (a :: rest) ci xo)
      | '-' :: c :: _ =>
        if !cfg.digit || !cfg.isDigit c then parseShort cfg a (mk p sk (a :: rest) ci xo)
        else if cfg.posix then some (.done, mk p sk (a :: rest) ci xo)
        else xgetopt cfg (mk p (sk ++ [a]) rest ci xo)
      | _ =>
        if cfg.posix then some (.done, mk p sk (a :: rest) ci xo)
        else xgetopt cfg (mk p (sk ++ [a]) rest ci xo) := by
  have hnext : searchArgv cfg (mk p sk (a :: rest) ci xo).argv.length
      { mk p sk (a :: rest) ci xo with argvindex := (mk p sk (a :: rest) ci xo).argvindex + 1 } =
      xgetopt cfg (mk p (sk ++ [a]) rest ci xo) := by
    have e : { mk p sk (a :: rest) ci xo with
        argvindex := (mk p sk (a :: rest) ci xo).argvindex + 1 } = mk p (sk ++ [a]) rest ci xo := by
      simp [mk, Nat.add_assoc]
    rw [e, xgetopt, if_pos (by simp [mk])]
    have e2 : (mk p sk (a :: rest) ci xo).argv.length = (mk p (sk ++ [a]) rest ci xo).argv.length := by
      simp [mk]
    rw [e2, searchArgv_fuel]
    simp [mk]
    omega
  have e1 : (mk p sk (a :: rest) ci xo).argv[(mk p sk (a :: rest) ci xo).argvindex]? = some a := by
    simp only [mk]
    rw [List.getElem?_append_right (by omega)]
    simp
  rw [xgetopt, if_pos (by simp [mk]), searchArgv, if_neg (by simp [mk]), e1]
  rw [← hnext]
  dsimp only
  split <;> simp_all

theorem xgetopt_nil (cfg : Config) (p sk : List Arg) (ci : Nat) (xo : Option Arg) :
    xgetopt cfg (mk p sk [] ci xo) = some (.done, mk p sk [] ci xo) := by
  have e1 : (p ++ (sk ++ []))[p.length + sk.length]? = none := by
    rw [List.getElem?_eq_none_iff]; simp
  rw [xgetopt, if_pos (by simp [mk]), searchArgv, if_neg (by simp [mk])]
  simp only [mk, e1]

/-! ## Long options -/

theorem matchLong_skip (cfg : Config) (name : List Char) (o : Opt) (os : List Opt)
    (m : Option Opt) (h : candidate cfg name o = false) :
    matchLong cfg name (o :: os) m = matchLong cfg name os m := by
  rw [matchLong.eq_def]
  dsimp only
  simp only [candidate, usable] at *
  by_cases hu : (o.posix || !cfg.posixlyCorrect) = true
  · simp only [hu, Bool.true_and, Bool.not_true, Bool.false_eq_true, if_false] at *
    cases hl : o.long with
    | none => rfl
    | some l =>
      simp only [hl] at h
      dsimp only
      rw [if_pos]
      intro h2
      rw [Bool.eq_false_iff, ne_eq, List.isPrefixOf_iff_prefix, List.prefix_iff_eq_take] at h
      exact h h2.symm
  · simp only [hu, Bool.not_false, if_true, Bool.not_eq_true] at *

theorem matchLong_hit (cfg : Config) (name : List Char) (o : Opt) (os : List Opt)
    (m : Option Opt) (h : candidate cfg name o = true) :
    matchLong cfg name (o :: os) m =
      if o.long = some name then .inr o
      else match m with
        | none => matchLong cfg name os (some o)
        | some _ => .inl .ambiguous := by
  rw [matchLong.eq_def]
  dsimp only
  simp only [candidate, usable, Bool.and_eq_true] at *
  obtain ⟨hu, h⟩ := h
  cases hl : o.long with
  | none => simp [hl] at h
  | some l =>
    simp only [hl] at h
    rw [List.isPrefixOf_iff_prefix] at h
    have ht : l.take name.length = name := (List.prefix_iff_eq_take.1 h).symm
    simp only [hu, Bool.not_true, Bool.false_eq_true, if_false, ht, ne_eq, not_true_eq_false]
    have : l.length = name.length ↔ some l = some name :=
      ⟨fun e => by rw [h.eq_of_length e.symm], fun e => by rw [Option.some.inj e]⟩
    simp only [this]
    rfl

theorem matchLong_one (cfg : Config) (name : List Char) (o : Opt) : ∀ (os : List Opt),
    matchLong cfg name os (some o) =
      match os.filter (candidate cfg name) with
      | [] => .inr o
      | o₂ :: _ => if o₂.long = some name then .inr o₂ else .inl .ambiguous
  | [] => rfl
  | o' :: os => by
    cases h : candidate cfg name o' with
    | false => rw [matchLong_skip _ _ _ _ _ h, matchLong_one cfg name o os]; simp [h]
    | true => rw [matchLong_hit _ _ _ _ _ h]; simp [h]

theorem matchLong_none (cfg : Config) (name : List Char) : ∀ (os : List Opt),
    matchLong cfg name os none =
      match os.filter (candidate cfg name) with
      | [] => .inl .noSuchOption
      | [o] => .inr o
      | o₁ :: o₂ :: _ =>
        if o₁.long = some name then .inr o₁
        else if o₂.long = some name then .inr o₂
        else .inl .ambiguous
  | [] => rfl
  | o' :: os => by
    cases h : candidate cfg name o' with
    | false => rw [matchLong_skip _ _ _ _ _ h, matchLong_none cfg name os]; simp [h]
    | true =>
      rw [matchLong_hit _ _ _ _ _ h, matchLong_one]
      simp only [h, List.filter_cons_of_pos]
      cases os.filter (candidate cfg name) <;> simp

theorem matchLong_spec (cfg : Config) (name : List Char) :
    matchLong cfg name cfg.opts none = findLong cfg name :=
  matchLong_none cfg name cfg.opts

/-! ## One argument string -/

/-- How the calls starting at state `st` proceed, given what the argument string `a` says. -/
def Sim (cfg : Config) (st : State) (p sk : List Arg) (a : Arg) (rest : List Arg) : Single → Prop
  | .complete rs l => ∀ rs' f s', Runs cfg (mk (p ++ [a]) sk rest 1 l) rs' f s' →
      Runs cfg st (rs ++ rs') f s'
  | .bad rs e => ∃ ci xo, Runs cfg st rs (.error e) (mk p sk (a :: rest) ci xo)
  | .needs rs o =>
    match rest with
    | [] => ∃ ci xo, Runs cfg st rs (.error .missingArgument) (mk p sk [a] ci xo)
    | b :: rest => ∀ rs' f s', Runs cfg (mk (p ++ [a, b]) sk rest 1 (some b)) rs' f s' →
        Runs cfg st (rs ++ (o, some b) :: rs') f s'

theorem Sim.cons {cfg : Config} {st st' : State} {p sk : List Arg} {a : Arg} {rest : List Arg}
    {S : Single} {o : Opt} (ho : o.arg = .none) (h : xgetopt cfg st = some (.option o, st'))
    (hS : Sim cfg st' p sk a rest S) : Sim cfg st p sk a rest (S.cons (o, none)) := by
  have hstep : ∀ rs f s', Runs cfg st' rs f s' → Runs cfg st ((o, none) :: rs) f s' := by
    intro rs f s' hr
    have := Runs.option (cfg := cfg) st st' s' o rs f h hr
    simpa [ho] using this
  cases S with
  | complete rs l => exact fun rs' f s' hr => hstep _ _ _ (hS rs' f s' hr)
  | bad rs e =>
    obtain ⟨ci, xo, hr⟩ := hS
    exact ⟨ci, xo, hstep _ _ _ hr⟩
  | needs rs o' =>
    cases rest with
    | nil =>
      obtain ⟨ci, xo, hr⟩ := hS
      exact ⟨ci, xo, hstep _ _ _ hr⟩
    | cons b rest => exact fun rs' f s' hr => hstep _ _ _ (hS rs' f s' hr)

theorem finishArg_mk (o : Opt) (p sk : List Arg) (a : Arg) (rest : List Arg) (ci : Nat)
    (xo : Option Arg) :
    finishArg o (mk p sk (a :: rest) ci xo) = some (.option o, mk (p ++ [a]) sk rest 1 xo) := by
  simp only [finishArg, argshift_mk]
  rfl

theorem mk_get_next (p sk : List Arg) (a : Arg) (rest : List Arg) (ci : Nat) (xo : Option Arg) :
    (mk p sk (a :: rest) ci xo).argv[(mk p sk (a :: rest) ci xo).argvindex + 1]? = rest[0]? := by
  simp only [mk]
  rw [List.getElem?_append_right (by omega), List.getElem?_append_right (by omega)]
  have : p.length + sk.length + 1 - p.length - sk.length = 1 := by omega
  rw [this]
  simp

theorem parseSeparate_nil (o : Opt) (p sk : List Arg) (a : Arg) (ci : Nat) (xo : Option Arg) :
    parseSeparate o (mk p sk [a] ci xo) =
      some (.error .missingArgument, mk p sk [a] ci none) := by
  rw [parseSeparate, if_pos (by simp [mk]; omega), mk_get_next]
  rfl

theorem parseSeparate_cons (o : Opt) (p sk : List Arg) (a b : Arg) (rest : List Arg) (ci : Nat)
    (xo : Option Arg) :
    parseSeparate o (mk p sk (a :: b :: rest) ci xo) =
      some (.option o, mk (p ++ [a, b]) sk rest 1 (some b)) := by
  rw [parseSeparate, if_pos (by simp [mk]; omega), mk_get_next]
  simp only [List.getElem?_cons_zero]
  have e : { mk p sk (a :: b :: rest) ci xo with xoptarg := some b } =
      mk p sk (a :: b :: rest) ci (some b) := rfl
  simp only [e, argshift_mk]
  simp [mk]

theorem sim_needs {cfg : Config} {st : State} {p sk : List Arg} {a : Arg} {rest : List Arg}
    {o : Opt} {ci : Nat} {xo : Option Arg} (ho : o.arg ≠ .none)
    (h : xgetopt cfg st = parseSeparate o (mk p sk (a :: rest) ci xo)) :
    Sim cfg st p sk a rest (.needs [] o) := by
  cases rest with
  | nil =>
    rw [parseSeparate_nil] at h
    exact ⟨_, _, .error _ _ _ h⟩
  | cons b rest =>
    intro rs' f s' hr
    rw [parseSeparate_cons] at h
    have := Runs.option _ _ _ _ _ _ h hr
    simpa [ho, mk] using this

theorem sim_finish {cfg : Config} {st : State} {p sk : List Arg} {a : Arg} {rest : List Arg}
    {o : Opt} {ci : Nat} {xo : Option Arg}
    (h : xgetopt cfg st = finishArg o (mk p sk (a :: rest) ci xo)) :
    Sim cfg st p sk a rest (.complete [(o, if o.arg = .none then none else xo)] xo) := by
  intro rs' f s' hr
  rw [finishArg_mk] at h
  exact Runs.option _ _ _ _ _ _ h hr

theorem kind_short {cfg : Config} {a : Arg} {cs : List Char} (h : kind cfg a = .short cs) :
    ∃ c s, cs = c :: s ∧ a = '-' :: c :: s ∧ c ≠ '-' ∧ (cfg.digit && cfg.isDigit c) = false := by
  unfold kind at h
  split at h
  · cases h
  · cases h
  · rename_i c s h1 h2
    split at h
    · cases h
    · rename_i h3
      cases h
      refine ⟨c, s, rfl, rfl, ?_, by simpa [Config.digit] using h3⟩
      rintro rfl
      exact h2 rfl
  · cases h

theorem xgetopt_short {cfg : Config} {a : Arg} {cs : List Char} (h : kind cfg a = .short cs)
    (p sk rest : List Arg) (ci : Nat) (xo : Option Arg) :
    xgetopt cfg (mk p sk (a :: rest) ci xo) = parseShort cfg a (mk p sk (a :: rest) ci xo) := by
  obtain ⟨c, s, rfl, rfl, hc, hd⟩ := kind_short h
  rw [xgetopt_cons]
  split
  · rename_i heq; simp only [List.cons.injEq] at heq; exact absurd heq.2.1 hc
  · rename_i heq
    simp only [List.cons.injEq] at heq
    obtain ⟨_, rfl, rfl⟩ := heq
    rw [if_pos]
    cases hx : cfg.digit <;> cases hy : cfg.isDigit c <;> simp_all
  · rename_i h1 h2
    exact absurd rfl (h2 c s)

theorem sim_short {cfg : Config} {a : Arg} {cs0 : List Char} (h : kind cfg a = .short cs0)
    (p sk rest : List Arg) : ∀ (cs : List Char) (k : Nat) (xo : Option Arg), cs ≠ [] →
    a.drop k = cs → Sim cfg (mk p sk (a :: rest) k xo) p sk a rest (cluster cfg xo cs)
  | [], _, _, h, _ => absurd rfl h
  | c :: cs, k, xo, _, hd => by
    have hx := xgetopt_short h p sk rest k xo
    have hget : a[k]? = some c := by
      have := congrArg (fun l => l[0]?) hd
      simpa [List.getElem?_drop] using this
    have hdrop : a.drop (k + 1) = cs := by
      have := congrArg (List.drop 1) hd
      simpa [List.drop_drop] using this
    have hsome : (a[k + 1]?).isSome = !cs.isEmpty := by
      have := congrArg (fun l => l[0]?) hdrop
      simp only [List.getElem?_drop, Nat.add_zero] at this
      rw [this]
      cases cs <;> rfl
    unfold parseShort at hx
    simp only [show (mk p sk (a :: rest) k xo).charindex = k from rfl, hget] at hx
    unfold cluster findShort
    by_cases hc : c = '-'
    · rw [if_pos hc] at hx ⊢
      exact ⟨_, _, .error _ _ _ hx⟩
    · rw [if_neg hc] at hx ⊢
      simp only [usable] at hx
      cases hf : cfg.opts.find? (fun o => (o.posix || !cfg.posixlyCorrect) && o.short == c) with
      | none =>
        rw [hf] at hx
        exact ⟨_, _, .error _ _ _ hx⟩
      | some o =>
        rw [hf] at hx
        simp only [foundShort, show (mk p sk (a :: rest) k xo).charindex = k from rfl, hsome,
          hdrop] at hx
        cases ho : o.arg with
        | none =>
          simp only [ho] at hx ⊢
          cases cs with
          | nil =>
            simp only [List.isEmpty_nil, Bool.not_true, Bool.false_eq_true, if_false] at hx
            have := sim_finish hx
            simpa [cluster, Single.cons, ho] using this
          | cons c' cs =>
            simp only [List.isEmpty_cons, Bool.not_false, if_true] at hx
            exact Sim.cons ho hx (sim_short h p sk rest (c' :: cs) (k + 1) xo (by simp) hdrop)
        | required =>
          simp only [ho, and_true] at hx ⊢
          by_cases hcs : cs = []
          · rw [if_pos hcs] at hx ⊢
            exact sim_needs (ci := k) (xo := some cs) (by simp [ho]) hx
          · rw [if_neg hcs] at hx ⊢
            have := sim_finish (ci := k) (xo := some cs) hx
            simpa [ho] using this
        | optional =>
          simp only [ho] at hx ⊢
          rw [if_neg (by simp)] at hx
          have := sim_finish (ci := k) (xo := some cs) hx
          simpa [ho] using this

theorem kind_long {cfg : Config} {a : Arg} {name eq : List Char} (h : kind cfg a = .long name eq) :
    ∃ s, s ≠ [] ∧ a = '-' :: '-' :: s ∧ name = s.takeWhile (· != '=') ∧
      eq = s.dropWhile (· != '=') := by
  unfold kind at h
  split at h
  · cases h
  · rename_i s hs
    cases h
    exact ⟨s, fun h => hs (by rw [h]), rfl, rfl, rfl⟩
  · split at h <;> cases h
  · cases h

theorem drop_takeWhile_length {α : Type} (p : α → Bool) (l : List α) :
    l.drop (l.takeWhile p).length = l.dropWhile p := by
  induction l with
  | nil => rfl
  | cons x l ih => by_cases h : p x <;> simp [h, ih]

theorem sim_long {cfg : Config} {a : Arg} {name eq : List Char} (h : kind cfg a = .long name eq)
    (p sk rest : List Arg) (k : Nat) (xo : Option Arg) :
    Sim cfg (mk p sk (a :: rest) k xo) p sk a rest (long cfg xo name eq) := by
  obtain ⟨s, hs, rfl, rfl, rfl⟩ := kind_long h
  have hx := xgetopt_cons cfg p sk ('-' :: '-' :: s) rest k xo
  simp only [parseLong, List.drop_succ_cons, List.drop_zero, if_neg hs, matchLong_spec,
    drop_takeWhile_length] at hx
  unfold long
  by_cases hp : cfg.posixlyCorrect = true
  · rw [if_pos hp] at hx ⊢
    exact ⟨_, _, .error _ _ _ hx⟩
  · rw [if_neg hp] at hx ⊢
    cases hf : findLong cfg (s.takeWhile (· != '=')) with
    | inl e =>
      rw [hf] at hx
      exact ⟨_, _, .error _ _ _ hx⟩
    | inr o =>
      rw [hf] at hx
      simp only [foundLong] at hx
      cases ho : o.arg with
      | none =>
        simp only [ho] at hx
        cases he : s.dropWhile (· != '=') with
        | nil =>
          rw [he] at hx
          have := sim_finish hx
          simpa [ho] using this
        | cons c v =>
          rw [he] at hx
          simp only [ho]
          exact ⟨_, _, .error _ _ _ hx⟩
      | required =>
        simp only [ho] at hx
        cases he : s.dropWhile (· != '=') with
        | nil =>
          rw [he] at hx
          simp only [ho]
          exact sim_needs (ci := k) (xo := xo) (by simp [ho]) hx
        | cons c v =>
          rw [he] at hx
          have := sim_finish (ci := k) (xo := some v) hx
          simpa [ho] using this
      | optional =>
        simp only [ho] at hx
        cases he : s.dropWhile (· != '=') with
        | nil =>
          rw [he] at hx
          have := sim_finish (ci := k) (xo := xo) hx
          simpa [ho] using this
        | cons c v =>
          rw [he] at hx
          have := sim_finish (ci := k) (xo := some v) hx
          simpa [ho] using this

theorem xgetopt_operand {cfg : Config} {a : Arg} (h : kind cfg a = .operand)
    (p sk rest : List Arg) (ci : Nat) (xo : Option Arg) :
    xgetopt cfg (mk p sk (a :: rest) ci xo) =
      if cfg.posix then some (.done, mk p sk (a :: rest) ci xo)
      else xgetopt cfg (mk p (sk ++ [a]) rest ci xo) := by
  rw [xgetopt_cons]
  unfold kind at h
  split at h
  · cases h
  · cases h
  · rename_i c s h1 h2
    split at h
    · rename_i hd
      split
      · rename_i heq; simp only [List.cons.injEq] at heq
        obtain ⟨_, rfl, rfl⟩ := heq
        exact (h2 rfl).elim
      · rename_i heq; simp only [List.cons.injEq] at heq
        obtain ⟨_, rfl, rfl⟩ := heq
        rw [if_neg]
        rw [show (!cfg.posixlyCorrect && cfg.flagDigit) = cfg.digit from rfl] at hd
        cases hx : cfg.digit <;> cases hy : cfg.isDigit c <;> simp_all
      · rfl
    · cases h
  · rename_i h1 h2 h3
    split
    · exact absurd rfl (h2 _)
    · exact absurd rfl (h3 _ _)
    · rfl

/-- The whole run of the option loop, from any state reached. -/
theorem runs_parse (cfg : Config) : ∀ (n : Nat) (rem p sk : List Arg) (last : Option Arg),
    rem.length ≤ n →
    ∃ s', Runs cfg (mk p sk rem 1 last) (parse cfg last rem).reports (parse cfg last rem).final s' ∧
      s'.argv = p ++ (parse cfg last rem).used ++ (sk ++ (parse cfg last rem).operands) ∧
      s'.xoptind = p.length + (parse cfg last rem).used.length
  | n, [], p, sk, last, _ => by
    rw [parse]
    refine ⟨_, .done _ _ (xgetopt_nil _ _ _ _ _), ?_, ?_⟩ <;> simp [mk]
  | 0, a :: rest, p, sk, last, h => by simp at h
  | n + 1, a :: rest, p, sk, last, h => by
    have hlen : rest.length ≤ n := by simpa using h
    have key : ∀ S, Sim cfg (mk p sk (a :: rest) 1 last) p sk a rest S →
        (parse cfg last (a :: rest) = match S with
          | .complete rs l =>
            { parse cfg l rest with reports := rs ++ (parse cfg l rest).reports,
                                    used := a :: (parse cfg l rest).used }
          | .bad rs e => ⟨rs, [], a :: rest, .error e⟩
          | .needs rs o =>
            match rest with
            | [] => ⟨rs, [], [a], .error .missingArgument⟩
            | b :: rest =>
              { parse cfg (some b) rest with
                reports := rs ++ (o, some b) :: (parse cfg (some b) rest).reports,
                used := a :: b :: (parse cfg (some b) rest).used }) →
        ∃ s', Runs cfg (mk p sk (a :: rest) 1 last) (parse cfg last (a :: rest)).reports
            (parse cfg last (a :: rest)).final s' ∧
          s'.argv = p ++ (parse cfg last (a :: rest)).used ++
            (sk ++ (parse cfg last (a :: rest)).operands) ∧
          s'.xoptind = p.length + (parse cfg last (a :: rest)).used.length := by
      intro S hS hp
      rw [hp]
      cases S with
      | complete rs l =>
        obtain ⟨s', h1, h2, h3⟩ := runs_parse cfg n rest (p ++ [a]) sk l hlen
        refine ⟨s', hS _ _ _ h1, ?_, ?_⟩
        · simpa using h2
        · simp at h3 ⊢; omega
      | bad rs e =>
        obtain ⟨ci, xo, h1⟩ := hS
        exact ⟨_, h1, by simp [mk], by simp [mk]⟩
      | needs rs o =>
        cases rest with
        | nil =>
          obtain ⟨ci, xo, h1⟩ := hS
          exact ⟨_, h1, by simp [mk], by simp [mk]⟩
        | cons b rest =>
          obtain ⟨s', h1, h2, h3⟩ := runs_parse cfg n rest (p ++ [a, b]) sk (some b)
            (by simp at hlen; omega)
          refine ⟨s', hS _ _ _ h1, ?_, ?_⟩
          · simpa using h2
          · simp at h3 ⊢; omega
    cases hk : kind cfg a with
    | short cs =>
      refine key (cluster cfg last cs) ?_ ?_
      · obtain ⟨c, s, rfl, rfl, _, _⟩ := kind_short hk
        exact sim_short hk p sk rest (c :: s) 1 last (by simp) rfl
      · rw [parse.eq_def]
        simp only [hk]
        split <;> simp_all
        split <;> simp_all
    | long name eq =>
      refine key (long cfg last name eq) (sim_long hk p sk rest 1 last) ?_
      rw [parse.eq_def]
      simp only [hk]
      split <;> simp_all
      split <;> simp_all
    | separator =>
      have ha : a = ['-', '-'] := by
        unfold kind at hk
        split at hk
        · rfl
        · cases hk
        · split at hk <;> cases hk
        · cases hk
      subst ha
      have hx := xgetopt_cons cfg p sk ['-', '-'] rest 1 last
      simp only [parseLong, List.drop_succ_cons, List.drop_zero, if_true, argshift_mk] at hx
      rw [parse]
      simp only [hk]
      exact ⟨_, .done _ _ hx, by simp [mk], by simp [mk]⟩
    | operand =>
      have hx := xgetopt_operand hk p sk rest 1 last
      rw [parse]
      simp only [hk]
      rw [show (cfg.posixlyCorrect || cfg.flagPosix) = cfg.posix from rfl]
      by_cases hp : cfg.posix = true
      · rw [if_pos hp] at hx ⊢
        exact ⟨_, .done _ _ hx, by simp [mk], by simp [mk]⟩
      · rw [if_neg hp] at hx ⊢
        obtain ⟨s', h1, h2, h3⟩ := runs_parse cfg n rest p (sk ++ [a]) last hlen
        exact ⟨s', runs_congr hx h1, by simpa using h2, h3⟩

/-! ## The specification's operands -/

theorem parse_perm (cfg : Config) : ∀ (n : Nat) (args : List Arg) (last : Option Arg),
    args.length ≤ n → ((parse cfg last args).used ++ (parse cfg last args).operands).Perm args ∧
      (parse cfg last args).used.Sublist args ∧ (parse cfg last args).operands.Sublist args ∧
      (cfg.posix = true → (parse cfg last args).used ++ (parse cfg last args).operands = args)
  | n, [], last, _ => by rw [parse]; simp
  | 0, a :: rest, last, h => by simp at h
  | n + 1, a :: rest, last, h => by
    have hlen : rest.length ≤ n := by simpa using h
    rw [parse.eq_def]
    dsimp only
    split
    · rename_i rs l _
      obtain ⟨h1, h2, h3, h4⟩ := parse_perm cfg n rest l hlen
      exact ⟨by simpa using h1, h2.cons_cons a, h3.cons a, fun hp => by simpa using h4 hp⟩
    · simp
    · split
      · simp
      · rename_i b rest
        obtain ⟨h1, h2, h3, h4⟩ := parse_perm cfg n rest (some b) (by simp at hlen; omega)
        exact ⟨by simpa using h1, (h2.cons_cons b).cons_cons a, (h3.cons b).cons a,
          fun hp => by simpa using h4 hp⟩
    · split
      · simp
      · split
        · simp
        · rename_i hp
          obtain ⟨h1, h2, h3, h4⟩ := parse_perm cfg n rest last hlen
          refine ⟨?_, h2.cons a, h3.cons_cons a, fun h => absurd h hp⟩
          exact List.perm_middle.trans (h1.cons a)

/-! ## The theorems -/

/-- C04 in full: starting from the first call, the caller's loop always terminates; it reports the
options that the specification reads from the argument list, leaves the command name first, moves
the option strings and their arguments in front of the operands, and (when there is no error)
leaves the index at the first operand. -/
theorem C04_option_parsing (cfg : Config) (argv0 : Arg) (args : List Arg) (last : Option Arg) :
    ∃ s', Runs cfg (State.start (argv0 :: args) last) (parse cfg last args).reports
        (parse cfg last args).final s' ∧
      s'.argv = argv0 :: ((parse cfg last args).used ++ (parse cfg last args).operands) ∧
      s'.xoptind = 1 + (parse cfg last args).used.length := by
  obtain ⟨s', h1, h2, h3⟩ := runs_parse cfg args.length args [argv0] [] last (Nat.le_refl _)
  exact ⟨s', h1, by simpa using h2, by simpa using h3⟩

/-- C04: whatever the options and arguments are, the loop terminates, the argument array is a
permutation of the original, and both the part before the index reached and the part after it keep
the original relative order. -/
theorem C04_permutation (cfg : Config) (argv0 : Arg) (args : List Arg) (last : Option Arg) :
    ∃ rs f s', Runs cfg (State.start (argv0 :: args) last) rs f s' ∧
      s'.argv.Perm (argv0 :: args) ∧ 1 ≤ s'.xoptind ∧ s'.xoptind ≤ s'.argv.length ∧
      s'.argv.head? = some argv0 ∧
      (s'.argv.take s'.xoptind).Sublist (argv0 :: args) ∧
      (s'.argv.drop s'.xoptind).Sublist args := by
  obtain ⟨s', h1, h2, h3⟩ := C04_option_parsing cfg argv0 args last
  obtain ⟨p1, p2, p3, _⟩ := parse_perm cfg args.length args last (Nat.le_refl _)
  refine ⟨_, _, s', h1, ?_, by omega, ?_, by rw [h2]; rfl, ?_, ?_⟩
  · rw [h2]; exact p1.cons argv0
  · rw [h2, h3]; simp; omega
  · rw [h2, h3, Nat.add_comm, List.take_succ_cons, List.take_left' rfl]
    exact p2.cons_cons argv0
  · rw [h2, h3, Nat.add_comm, List.drop_succ_cons, List.drop_left' rfl]
    exact p3

/-- The loop of calls has only one outcome. -/
theorem C04_deterministic (cfg : Config) (s : State) (rs rs' : List Report) (f f' : Final)
    (t t' : State) (h : Runs cfg s rs f t) (h' : Runs cfg s rs' f' t') :
    rs = rs' ∧ f = f' ∧ t = t' := runs_det h h'

theorem parse_append (cfg : Config) (x : Arg) (post : List Arg)
    (hx : kind cfg x = .separator ∨ (kind cfg x = .operand ∧ cfg.posix = true)) :
    ∀ (n : Nat) (pre : List Arg) (last : Option Arg), pre.length ≤ n →
    (parse cfg last pre).final = .done →
    (parse cfg last (pre ++ x :: post)).reports = (parse cfg last pre).reports ∧
    (parse cfg last (pre ++ x :: post)).final = .done ∧
    ((parse cfg last (pre ++ x :: post)).operands = (parse cfg last pre).operands ++ x :: post ∨
      (kind cfg x = .separator ∧
        (parse cfg last (pre ++ x :: post)).operands = (parse cfg last pre).operands ++ post))
  | n, [], last, _, _ => by
    rw [List.nil_append, parse.eq_def]
    rcases hx with hx | ⟨hx, hp⟩
    · simp [hx, parse]
    · have hp' : cfg.posixlyCorrect = true ∨ cfg.flagPosix = true := by
        simpa [Config.posix] using hp
      simp [hx, hp', parse]
  | 0, a :: rest, last, h, _ => by simp at h
  | n + 1, a :: rest, last, h, hd => by
    have hlen : rest.length ≤ n := by simpa using h
    rw [List.cons_append]
    rw [parse.eq_def] at hd ⊢
    rw [parse.eq_def cfg last (a :: rest)]
    dsimp only at hd ⊢
    split at hd
    · rename_i rs l heq
      obtain ⟨h1, h2, h3⟩ := parse_append cfg x post hx n rest l hlen hd
      exact ⟨by simp [h1], h2, h3⟩
    · cases hd
    · rename_i rs o heq
      cases rest with
      | nil => cases hd
      | cons b rest =>
        obtain ⟨h1, h2, h3⟩ := parse_append cfg x post hx n rest (some b)
          (by simp at hlen; omega) hd
        exact ⟨by simp [h1], h2, h3⟩
    · rename_i heq
      cases hk : kind cfg a with
      | separator => simp
      | _ =>
        simp only [hk] at hd ⊢
        rw [show (cfg.posixlyCorrect || cfg.flagPosix) = cfg.posix from rfl] at hd ⊢
        by_cases hp : cfg.posix = true
        · simp [hp]
        · simp only [hp, if_false] at hd ⊢
          obtain ⟨h1, h2, h3⟩ := parse_append cfg x post hx n rest last hlen hd
          refine ⟨h1, h2, ?_⟩
          simpa using h3

theorem runs_tail {cfg : Config} {argv0 : Arg} {args : List Arg} {last : Option Arg}
    {rs : List Report} {f : Final} {s : State}
    (h : Runs cfg (State.start (argv0 :: args) last) rs f s) :
    rs = (parse cfg last args).reports ∧ f = (parse cfg last args).final ∧
      s.argv.drop s.xoptind = (parse cfg last args).operands := by
  obtain ⟨s', h1, h2, h3⟩ := C04_option_parsing cfg argv0 args last
  obtain ⟨rfl, rfl, rfl⟩ := runs_det h h1
  refine ⟨rfl, rfl, ?_⟩
  rw [h2, h3, Nat.add_comm, List.drop_succ_cons, List.drop_left' rfl]

/-- C05, the separator: in every mode, if the arguments `pre` parse without error and are followed
by `--` (so that the `--` is not the argument of an option), then exactly the options of `pre` are
reported, whatever follows, and everything after the `--` ends up among the operands, in order. -/
theorem C05_separator (cfg : Config) (argv0 : Arg) (pre post : List Arg) (last : Option Arg)
    (rs : List Report) (s : State)
    (h : Runs cfg (State.start (argv0 :: pre) last) rs .done s) :
    ∃ s', Runs cfg (State.start (argv0 :: (pre ++ ['-', '-'] :: post)) last) rs .done s' ∧
      (s'.argv.drop s'.xoptind = s.argv.drop s.xoptind ++ post ∨
       s'.argv.drop s'.xoptind = s.argv.drop s.xoptind ++ ['-', '-'] :: post) := by
  obtain ⟨h1, h2, h3⟩ := runs_tail h
  obtain ⟨p1, p2, p3⟩ := parse_append cfg ['-', '-'] post (Or.inl rfl) pre.length pre last
    (Nat.le_refl _) h2.symm
  obtain ⟨s', r1, _, _⟩ := C04_option_parsing cfg argv0 (pre ++ ['-', '-'] :: post) last
  obtain ⟨_, _, r3⟩ := runs_tail r1
  refine ⟨s', ?_, ?_⟩
  · rw [p1, p2, ← h1] at r1; exact r1
  · rw [r3, h3]
    rcases p3 with p3 | ⟨_, p3⟩
    · exact Or.inr p3
    · exact Or.inl p3

set_option smartUnfolding false

/-- The first `--` reached is not itself an operand. -/
theorem C05_separator_removed (cfg : Config) (argv0 : Arg) (post : List Arg) (last : Option Arg) :
    ∃ s', Runs cfg (State.start (argv0 :: ['-', '-'] :: post) last) [] .done s' ∧
      s'.argv.drop s'.xoptind = post := by
  obtain ⟨s', r1, _, _⟩ := C04_option_parsing cfg argv0 (['-', '-'] :: post) last
  obtain ⟨_, _, r3⟩ := runs_tail r1
  exact ⟨s', r1, r3⟩

/-- C05, POSIX mode: the arguments are not reordered at all. -/
theorem C05_posix_order (cfg : Config) (argv0 : Arg) (args : List Arg) (last : Option Arg)
    (hp : cfg.posixlyCorrect = true ∨ cfg.flagPosix = true) (rs : List Report) (f : Final) (s : State)
    (h : Runs cfg (State.start (argv0 :: args) last) rs f s) : s.argv = argv0 :: args := by
  obtain ⟨s', h1, h2, h3⟩ := C04_option_parsing cfg argv0 args last
  obtain ⟨_, _, rfl⟩ := runs_det h h1
  rw [h2, (parse_perm cfg args.length args last (Nat.le_refl _)).2.2.2
    (by simpa [Config.posix] using hp)]

/-- C05, POSIX mode: if the arguments `pre` parse without error and are followed by an operand (a
string that does not start with `-`, or the string `-`), then exactly the options of `pre` are
reported, and that operand and everything after it stay operands. -/
theorem C05_posix_operand (cfg : Config) (argv0 : Arg) (pre : List Arg) (x : Arg)
    (post : List Arg) (last : Option Arg)
    (hp : cfg.posixlyCorrect = true ∨ cfg.flagPosix = true)
    (hx : x.head? ≠ some '-' ∨ x = ['-']) (rs : List Report) (s : State)
    (h : Runs cfg (State.start (argv0 :: pre) last) rs .done s) :
    ∃ s', Runs cfg (State.start (argv0 :: (pre ++ x :: post)) last) rs .done s' ∧
      s'.argv.drop s'.xoptind = s.argv.drop s.xoptind ++ x :: post := by
  have hk : kind cfg x = .operand := by
    rcases hx with hx | rfl
    · unfold kind
      split
      · simp at hx
      · simp at hx
      · simp at hx
      · rfl
    · rfl
  obtain ⟨h1, h2, h3⟩ := runs_tail h
  obtain ⟨p1, p2, p3⟩ := parse_append cfg x post (Or.inr ⟨hk, by simpa [Config.posix] using hp⟩) pre.length pre last
    (Nat.le_refl _) h2.symm
  obtain ⟨s', r1, _, _⟩ := C04_option_parsing cfg argv0 (pre ++ x :: post) last
  obtain ⟨_, _, r3⟩ := runs_tail r1
  refine ⟨s', ?_, ?_⟩
  · rw [p1, p2, ← h1] at r1; exact r1
  · rw [r3, h3]
    rcases p3 with p3 | ⟨hk', _⟩
    · exact p3
    · rw [hk] at hk'; cases hk'

/-! ## Concrete cases -/

/-- A table with a flag `-a`/`--all`, an option `-f`/`--file` with an argument, and `--fix`. -/
def demo (posix : Bool) : Config :=
  { opts := [⟨'a', some ['a','l','l'], .none, true⟩, ⟨'f', some ['f','i','l','e'], .required, true⟩,
      ⟨'x', some ['f','i','x'], .none, true⟩],
    posixlyCorrect := false, flagPosix := posix, flagDigit := false, isDigit := Char.isDigit }

/-- `cmd x -af y z --fil=w`: the two operands are `x` and `z`. -/
example : ∃ s', Runs (demo false)
    (State.start [['c'], ['x'], ['-','a','f'], ['y'], ['z'], ['-','-','f','i','l','=','w']] none)
    [(⟨'a', some ['a','l','l'], .none, true⟩, none),
     (⟨'f', some ['f','i','l','e'], .required, true⟩, some ['y']),
     (⟨'f', some ['f','i','l','e'], .required, true⟩, some ['w'])] .done s' ∧
    s'.argv = [['c'], ['-','a','f'], ['y'], ['-','-','f','i','l','=','w'], ['x'], ['z']] ∧
    s'.xoptind = 4 :=
  C04_option_parsing (demo false) ['c']
    [['x'], ['-','a','f'], ['y'], ['z'], ['-','-','f','i','l','=','w']] none

/-- In POSIX mode the same arguments are all operands. -/
example : ∃ s', Runs (demo true) (State.start [['c'], ['x'], ['-','a','f'], ['y']] none) [] .done s' ∧
    s'.argv = [['c'], ['x'], ['-','a','f'], ['y']] ∧ s'.xoptind = 1 :=
  C04_option_parsing (demo true) ['c'] [['x'], ['-','a','f'], ['y']] none

/-- The hypotheses of `C05_separator` are met: `c x -a` followed by `-- -a`. -/
example : ∃ s s' : State, Runs (demo false) (State.start [['c'], ['x'], ['-','a']] none)
      [(⟨'a', some ['a','l','l'], .none, true⟩, none)] .done s ∧
    Runs (demo false) (State.start [['c'], ['x'], ['-','a'], ['-','-'], ['-','a']] none)
      [(⟨'a', some ['a','l','l'], .none, true⟩, none)] .done s' ∧
    s'.argv.drop s'.xoptind = [['x'], ['-','a']] := by
  obtain ⟨s, h1, _, _⟩ := C04_option_parsing (demo false) ['c'] [['x'], ['-','a']] none
  obtain ⟨s', h2, h3, h4⟩ :=
    C04_option_parsing (demo false) ['c'] [['x'], ['-','a'], ['-','-'], ['-','a']] none
  refine ⟨s, s', h1, h2, ?_⟩
  rw [h3, h4]
  rfl

/-- `--fi` is ambiguous, `--fix` is not although it is not the only name that starts with `fi`. -/
example : (parse (demo false) none [['-','-','f','i']]).final = .error .ambiguous ∧
    (parse (demo false) none [['-','-','f','i','x']]).final = .done := ⟨rfl, rfl⟩

/-! ## Findings -/

/-- Finding: the header of `xgetopt` says that `xoptarg` is null for an option without an argument,
but the variable is never reset: a long option whose optional argument is absent is reported with
the argument of the option before it.  (No table in the source has such an option.) -/
theorem C04_negative_stale_optarg :
    ∃ (cfg : Config) (o : Opt) (s' : State), o.arg = .optional ∧
      Runs cfg (State.start [['c'], ['-','f','v'], ['-','-','o','p','t']] none)
        [(⟨'f', none, .required, true⟩, some ['v']), (o, some ['v'])] .done s' := by
  let o : Opt := ⟨'o', some ['o','p','t'], .optional, true⟩
  let cfg : Config :=
    { opts := [⟨'f', none, .required, true⟩, o], posixlyCorrect := false, flagPosix := false,
      flagDigit := false, isDigit := Char.isDigit }
  obtain ⟨s', h1, _, _⟩ :=
    C04_option_parsing cfg ['c'] [['-','f','v'], ['-','-','o','p','t']] none
  exact ⟨cfg, o, s', rfl, h1⟩

/-- Finding: an exact long option name is reported as ambiguous if it is listed after two entries
whose names it is a proper prefix of. -/
theorem C04_negative_exact_ambiguous :
    ∃ (opts : List Opt) (o : Opt), o ∈ opts ∧ o.long = some ['f','i'] ∧
      ∀ s, ¬ Runs { opts := opts, posixlyCorrect := false, flagPosix := false, flagDigit := false,
                    isDigit := Char.isDigit }
        (State.start [['c'], ['-','-','f','i']] none) [(o, none)] .done s := by
  refine ⟨[⟨'f', some ['f','i','l','e'], .none, true⟩, ⟨'x', some ['f','i','x'], .none, true⟩,
    ⟨'i', some ['f','i'], .none, true⟩], ⟨'i', some ['f','i'], .none, true⟩, by simp, rfl, ?_⟩
  intro s h
  have h2 := (runs_tail h).2.1
  cases h2

end Yash.Xgetopt
