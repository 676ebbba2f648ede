import Verif.Kill.Spec
import Verif.Sig.NameProps
import Verif.Job.Props
/-! # Property C87: sending signals -/
set_option autoImplicit false

namespace Yash.Kill

open Spec
open Yash.Sig.Names (Table getSignalName getSignalNumber getSignalNumberToupper number_spec name_spec numeral_iff decimal_numeral denotes_valid name_ne_nil C54_rtmax_zero decimal isDigit_sign)
open Yash.Sig.Names.Spec (Numeral Denotes Valid Name Forbidden Table.Ok)
open Yash.TestBuiltin (World isDigit wcstoimax xwcstoi signOf digitsVal)
open Yash.Job.Spec (jobAt Present Means Runs)

/-! ## Arguments -/

theorem options_ends (E : Env) (list verbose : Bool) {args ops : List Str} (h : Ends args ops) :
    options E list verbose args = if list then .list verbose ops else .send E.sigterm ops := by
  cases h with
  | operands h =>
    match args, h with
    | [], _ => rfl
    | [] :: rest, _ => rfl
    | (c :: []) :: rest, _ => 
      by_cases hc : c = '-'
      · subst hc; rfl
      · unfold options
        split
        · rename_i heq; cases heq
        · rename_i heq; cases heq
        · rfl
    | (c :: d :: t) :: rest, h =>
      have hc : c ≠ '-' := by
        rintro rfl
        rcases h _ rfl with h | h <;> simp at h
      unfold options
      split
      · rename_i heq; cases heq
      · rename_i heq; cases heq; exact absurd rfl hc
      · rfl
  | separated => rfl

theorem scan_cons (E : Env) (arg : Str) (rest : List Str) (i : Nat) (list verbose : Bool) (c : Char) (cs : Str) : scan E arg rest i list verbose (c :: cs) =
    if c = 'n' ∨ c = 's' then
      if list then .done (.stop .error)
      else if cs = [] then
        match rest with
        | [] => .done (.stop .error)
        | name :: rest => .done (parseSignalName E name rest)
      else .done (parseSignalName E cs rest)
    else if c = 'l' then scan E arg rest (i + 1) true verbose cs
    else if c = 'v' then scan E arg rest (i + 1) true true cs
    else if c = '-' ∧ i = 1 ∧ cs = [] then .done (if list then .list verbose rest else .send E.sigterm rest)
    else if c = '-' ∧ i = 1 ∧ E.posix = false ∧ arg.isPrefixOf "--help".toList then .done .help
    else if i = 1 ∧ list = false then .done (parseSignalName E (c :: cs) rest)
    else .done (.stop .error) := by
  conv => lhs; unfold scan
  rfl

theorem options_given (E : Env) {first args : List Str} {name : Str} (h : Gives first name) : options E false false (first ++ args) = parseSignalName E name args := by
  cases h with
  | separate h => rcases h with rfl | rfl <;> rfl
  | @joined c name h hn =>
    have : scan E ('-' :: c :: name) args 1 false false (c :: name) = .done (parseSignalName E name args) := by
      rw [scan_cons, if_pos (h.symm), if_neg (by simp), if_neg hn]
    simp only [List.cons_append, List.nil_append, options, this]
  | @plain c name h =>
    simp only [List.mem_cons, List.not_mem_nil, or_false, not_or] at h
    obtain ⟨h1, h2, h3, h4, h5⟩ := h
    have : scan E ('-' :: c :: name) args 1 false false (c :: name) = .done (parseSignalName E (c :: name) args) := by
      rw [scan_cons, if_neg (by simp [h1, h2]), if_neg h3, if_neg h4, if_neg (by simp [h5]), if_neg (by simp [h5]), if_pos ⟨rfl, rfl⟩]
    simp only [List.cons_append, List.nil_append, options, this]

theorem scan_letters (E : Env) (arg : Str) (rest : List Str) : ∀ (letters : List Char) (i : Nat) (list verbose : Bool), (∀ c ∈ letters, c = 'l' ∨ c = 'v') →
    scan E arg rest i list verbose letters = .next (list || !letters.isEmpty) (verbose || letters.contains 'v')
  | [], i, list, verbose, _ => by simp [scan]
  | c :: cs, i, list, verbose, h => by
    have ih := fun i l v => scan_letters E arg rest cs i l v fun d hd => h d (by simp [hd])
    rcases h c (by simp) with rfl | rfl
    · rw [scan_cons, if_neg (by decide), if_pos rfl, ih]
      simp
    · rw [scan_cons, if_neg (by decide), if_neg (by decide), if_pos rfl, ih]
      simp

theorem options_list (E : Env) {args ops : List Str} {letters : List Char} (h : ListUsage args letters ops) : ∀ list verbose,
    options E list verbose args = .list (verbose || letters.contains 'v') ops := by
  have key : ∀ {letters : List Char} (args : List Str) (list verbose : Bool), letters ≠ [] → (∀ c ∈ letters, c = 'l' ∨ c = 'v') →
      options E list verbose (('-' :: letters) :: args) = options E true (verbose || letters.contains 'v') args := by
    intro letters args list verbose hn hl
    cases letters with
    | nil => exact absurd rfl hn
    | cons c cs =>
      simp only [options, scan_letters E _ args _ 1 list verbose hl]
      simp
  induction h with
  | last hn hl he =>
    intro list verbose
    rw [key _ _ _ hn hl, options_ends E _ _ he, if_pos rfl]
  | @more letters others args ops hn hl _ ih =>
    intro list verbose
    rw [key _ _ _ hn hl, ih, Bool.or_assoc]
    congr 2
    rw [Bool.eq_iff_iff]
    simp

/-! ## Signals -/

theorem name_pos {T : Table} (hT : Table.Ok T) {s : Str} {n : Int} (h : Name T s n) : 0 < n := by
  have h1 := hT.rtmin
  have h2 := hT.le
  cases h with
  | table _ _ h => exact (hT.number _ h).1
  | rtmin => exact h1
  | rtmax => omega
  | above => omega
  | below => omega

theorem valid_nonneg {T : Table} (hT : Table.Ok T) {n : Int} (h : Valid T n) : 0 ≤ n := by
  have h1 := hT.rtmin
  rcases h with rfl | h | ⟨s, h⟩
  · omega
  · omega
  · have := (hT.number _ h).1
    simp only at this
    omega

theorem numeral_head {s : Str} {n : Nat} (h : Numeral s n) : (s.head?.map isDigit).getD false = true := by
  obtain ⟨c, r, rfl, hc⟩ := h.head
  simpa using hc

theorem signal_parsed {E : Env} (hT : Table.Ok E.T) {name : Str} {n : Int} (hs : Signal E name n) (hp : ¬(E.posix = true ∧ "SIG".toList <+: name)) {args ops : List Str}
    (he : EndsAfterSignal args ops) : parseSignalName E name args = .send n ops := by
  have hp' : (E.posix && "SIG".toList.isPrefixOf name) = false := by
    rw [Bool.eq_false_iff]
    intro h
    rw [Bool.and_eq_true, List.isPrefixOf_iff_prefix] at h
    exact hp h
  have hn : getSignalNumberToupper E.upper E.W E.T name = some n ∧ ¬(n < 0 ∨ (n = 0 ∧ ((name.map E.upper).head?.map isDigit).getD false = false)) := by
    cases hs with
    | signal h h0 => exact ⟨(number_spec hT _).1 _ h, by omega⟩
    | check h =>
      refine ⟨(number_spec hT _).1 _ (.number _ 0 h (.inl rfl)), ?_⟩
      rw [numeral_head h]
      simp
  unfold parseSignalName
  rw [hp', if_neg (by simp), hn.1]
  simp only
  rw [if_neg hn.2]
  cases he with
  | operands h =>
    cases args with
    | nil => rfl
    | cons a as =>
      simp only
      rw [if_neg]
      rintro rfl
      exact h rfl
  | separated => rfl

theorem signal_unknown {E : Env} (hT : Table.Ok E.T) {name : Str} (hs : ∀ n, ¬Signal E name n) (hf : ¬Forbidden (name.map E.upper)) (hp : ¬(E.posix = true ∧ "SIG".toList <+: name)) (args : List Str) :
    parseSignalName E name args = .stop .failure := by
  have hp' : (E.posix && "SIG".toList.isPrefixOf name) = false := by
    rw [Bool.eq_false_iff]
    intro h
    rw [Bool.and_eq_true, List.isPrefixOf_iff_prefix] at h
    exact hp h
  unfold parseSignalName
  rw [hp', if_neg (by simp)]
  cases hg : getSignalNumberToupper E.upper E.W E.T name with
  | none => exact absurd ((number_spec (W := E.W) hT _).2.2.1 hg) hf
  | some n =>
    simp only
    rw [if_pos]
    rcases (number_spec (W := E.W) hT _).2.2.2 n hg with rfl | hd
    · exact .inl (by omega)
    · have h0 := valid_nonneg hT (denotes_valid hd hT)
      by_cases hz : n = 0
      · subst hz
        refine .inr ⟨rfl, ?_⟩
        rw [Bool.eq_false_iff]
        intro hh
        generalize hx : name.map E.upper = s at hd hh
        generalize hz : (0 : Int) = z at hd
        cases hd with
        | exit => revert hh; decide
        | number s k hk _ =>
          have : k = 0 := by omega
          subst this
          exact hs 0 (.check (hx ▸ hk))
        | plain _ _ h => have := name_pos hT h; omega
        | sig _ _ h => have := name_pos hT h; omega
      · exact absurd (.signal hd (by omega)) (hs n)

/-! ## Processes -/

theorem wcstoimax_of {W : World} {s r : Str} {neg : Bool} (h : signOf (s.dropWhile W.isSpace) = (neg, r)) (n : Int) :
    wcstoimax W s = some n ↔ ∃ k, Numeral r k ∧ n = (if neg then -(k : Int) else k) ∧ -9223372036854775808 ≤ n ∧ n ≤ 9223372036854775807 := by
  unfold wcstoimax
  rw [h]
  dsimp only
  by_cases h1 : r = []
  · subst h1
    simp only [List.isEmpty_nil, if_true]
    simp [numeral_iff]
  · have h3 : r.isEmpty = false := by cases r with | nil => exact absurd rfl h1 | cons => rfl
    by_cases h2 : r.all isDigit = true
    · have h4 : Numeral r (digitsVal r 0) := (numeral_iff _ _).2 ⟨h1, h2, rfl⟩
      rw [h3, if_neg (by simp), if_pos h2]
      generalize hv : (if neg = true then -(digitsVal r 0 : Int) else (digitsVal r 0 : Int)) = v
      constructor
      · intro hh
        split at hh
        · cases hh
        · cases hh
          exact ⟨_, h4, hv.symm, by omega, by omega⟩
      · rintro ⟨k, hk, rfl, h5, h6⟩
        rw [hk.unique h4] at h5 h6 ⊢
        rw [hv] at h5 h6 ⊢
        rw [if_neg (by omega)]
    · rw [h3, if_neg (by simp), if_neg h2]
      simp [numeral_iff, h2]

theorem drop_spaces {p : Char → Bool} : ∀ {spaces : Str} {c : Char} {r : Str}, (∀ d ∈ spaces, p d = true) → p c = false → (spaces ++ c :: r).dropWhile p = c :: r
  | [], c, r, _, h => by simp [h]
  | d :: ds, c, r, h1, h2 => by
    rw [List.cons_append, List.dropWhile_cons, if_pos (h1 d (by simp))]
    exact drop_spaces (fun e he => h1 e (by simp [he])) h2

theorem integer_iff (W : World) (s : Str) (n : Int) : wcstoimax W s = some n ↔ Integer W.isSpace s n ∧ -2 ^ 63 ≤ n ∧ n < 2 ^ 63 := by
  constructor
  · intro h
    have hsplit : s = s.takeWhile W.isSpace ++ s.dropWhile W.isSpace := (List.takeWhile_append_dropWhile).symm
    have hsp : ∀ c ∈ s.takeWhile W.isSpace, W.isSpace c = true := fun c hc => by
      have := List.all_takeWhile (p := W.isSpace) (l := s)
      exact List.all_eq_true.1 this c hc
    cases hs : signOf (s.dropWhile W.isSpace) with
    | mk neg r =>
      obtain ⟨k, hk, hn, h1, h2⟩ := (wcstoimax_of hs n).1 h
      refine ⟨?_, by omega, by omega⟩
      rw [hsplit]
      unfold signOf at hs
      split at hs
      · rename_i heq
        cases hs
        rw [heq, hn, if_pos rfl]
        exact .minus hsp hk
      · rename_i heq
        cases hs
        rw [heq, hn, if_neg (by simp)]
        exact .plus hsp hk
      · cases hs
        rw [hn, if_neg (by simp)]
        exact .unsigned hsp hk
  · rintro ⟨h, h1, h2⟩
    cases h with
    | @unsigned spaces digits k hsp hk =>
      obtain ⟨c, r, rfl, hc⟩ := hk.head
      obtain ⟨e1, e2, e3⟩ := isDigit_sign hc
      have : signOf ((spaces ++ c :: r).dropWhile W.isSpace) = (false, c :: r) := by
        rw [drop_spaces hsp (W.notSpace c e3)]
        unfold signOf
        split
        · rename_i heq; cases heq; exact absurd rfl e2
        · rename_i heq; cases heq; exact absurd rfl e1
        · rfl
      exact (wcstoimax_of this _).2 ⟨k, hk, by simp, by omega, by omega⟩
    | @plus spaces digits k hsp hk =>
      have : signOf ((spaces ++ '+' :: digits).dropWhile W.isSpace) = (false, digits) := by
        rw [drop_spaces hsp (W.notSpace '+' (by decide))]; rfl
      exact (wcstoimax_of this _).2 ⟨k, hk, by simp, by omega, by omega⟩
    | @minus spaces digits k hsp hk =>
      have : signOf ((spaces ++ '-' :: digits).dropWhile W.isSpace) = (true, digits) := by
        rw [drop_spaces hsp (W.notSpace '-' (by decide))]; rfl
      exact (wcstoimax_of this _).2 ⟨k, hk, by simp, by omega, by omega⟩

theorem toPid_eq {n : Int} (h1 : -2 ^ 31 ≤ n) (h2 : n < 2 ^ 31) : toPid n = n := by
  unfold toPid
  omega

theorem target_iff {E : Env} {o : Job.Opts} (hj : Runs o True Job.init E.jobs) (s : Str) (hr : ∀ n, Integer E.W.isSpace s n → -2 ^ 31 ≤ n ∧ n < 2 ^ 31) (p : Int) :
    target E s = some p ↔ Target E s p := by
  unfold target
  by_cases h : s.head? = some '%'
  · rw [if_pos h]
    obtain ⟨t, rfl⟩ : ∃ t, s = '%' :: t := by
      cases s with
      | nil => cases h
      | cons c t => simp only [List.head?_cons, Option.some.injEq] at h; exact ⟨t, by rw [h]⟩
    · simp only [getJobPgid]
      constructor
      · intro hx
        cases hl : Job.lookup E.jobs t with
        | error e => rw [hl] at hx; cases hx
        | ok r =>
          obtain ⟨n, j⟩ := r
          rw [hl] at hx
          obtain ⟨h1, h2, h3⟩ := (Job.job_specification hj t n j).1 hl
          simp only at hx
          split at hx
          · cases hx
          · rename_i hleg
            split at hx
            · cases hx
            · rename_i hp
              cases hx
              exact .job h1 h2 h3 (by simpa using hleg) hp
      · intro hx
        generalize hs : '%' :: t = s at hx
        cases hx with
        | process hne => exact absurd (by rw [← hs]; rfl) hne
        | job h1 h2 h3 h4 h5 =>
          cases hs
          rw [(Job.job_specification hj _ _ _).2 ⟨h1, h2, h3⟩]
          simp [h4, h5]
  · rw [if_neg h]
    constructor
    · intro hx
      cases hw : wcstoimax E.W s with
      | none => rw [hw] at hx; cases hx
      | some n =>
        rw [hw] at hx
        cases hx
        obtain ⟨h1, h2, h3⟩ := (integer_iff _ _ _).1 hw
        obtain ⟨h4, h5⟩ := hr n h1
        rw [toPid_eq h4 h5]
        exact .process h h1 h2 h3
    · intro hx
      cases hx with
      | process _ h1 h2 h3 =>
        rw [(integer_iff _ _ _).2 ⟨h1, h2, h3⟩]
        obtain ⟨h4, h5⟩ := hr p h1
        simp [toPid_eq h4 h5]
      | job => exact absurd rfl h

theorem sendLoop_spec {E : Env} {o : Job.Opts} (hj : Runs o True Job.init E.jobs) (sys : System) (signum : Int) : ∀ (ops : List Str) (before : List Call),
    (∀ s ∈ ops, ∀ n, Integer E.W.isSpace s n → -2 ^ 31 ≤ n ∧ n < 2 ^ 31) →
    ∃ calls, (sendLoop E sys signum before ops).1 = before ++ calls ∧ Sends E signum ops calls ∧
      ((sendLoop E sys signum before ops).2 = 0 ↔ (∀ s ∈ ops, ∃ p, Target E s p) ∧ ∀ a c b, calls = a ++ c :: b → sys (before ++ a) c = true)
  | [], before, _ => ⟨[], by simp [sendLoop], .nil, by simp [sendLoop]⟩
  | s :: ops, before, hr => by
    have ht := target_iff hj s (hr s (by simp))
    cases hp : target E s with
    | none =>
      obtain ⟨calls, h1, h2, h3⟩ := sendLoop_spec hj sys signum ops before fun x hx => hr x (by simp [hx])
      have hno : ∀ p, ¬Target E s p := fun p hp' => by
        have := (ht p).2 hp'
        rw [hp] at this; cases this
      refine ⟨calls, ?_, .skipped hno h2, ?_⟩
      · simp only [sendLoop, hp]; exact h1
      · simp only [sendLoop, hp]
        constructor
        · intro e; omega
        · rintro ⟨e, -⟩
          obtain ⟨p, hp'⟩ := e s (by simp)
          exact absurd hp' (hno p)
    | some p =>
      obtain ⟨calls, h1, h2, h3⟩ := sendLoop_spec hj sys signum ops (before ++ [(p, signum)]) fun x hx => hr x (by simp [hx])
      have hp' := (ht p).1 hp
      refine ⟨(p, signum) :: calls, ?_, .found hp' h2, ?_⟩
      · simp only [sendLoop, hp]; rw [h1]; simp
      · simp only [sendLoop, hp]
        have hcase : (∀ a c b, (p, signum) :: calls = a ++ c :: b → sys (before ++ a) c = true) ↔
            sys before (p, signum) = true ∧ ∀ a c b, calls = a ++ c :: b → sys (before ++ [(p, signum)] ++ a) c = true := by
          constructor
          · intro h
            refine ⟨by simpa using h [] _ _ rfl, fun a c b e => ?_⟩
            have := h ((p, signum) :: a) c b (by rw [e]; rfl)
            simpa using this
          · rintro ⟨g1, g2⟩ a c b e
            cases a with
            | nil =>
              simp only [List.nil_append, List.cons.injEq] at e
              rw [List.append_nil, ← e.1]; exact g1
            | cons d a =>
              simp only [List.cons_append, List.cons.injEq] at e
              have := g2 a c b e.2
              rw [e.1] at this
              simpa using this
        rw [hcase]
        by_cases hsys : sys before (p, signum) = true
        · rw [if_pos hsys, h3]
          constructor
          · rintro ⟨g1, g2⟩
            refine ⟨fun x hx => ?_, hsys, g2⟩
            rcases List.mem_cons.1 hx with rfl | hx
            · exact ⟨p, hp'⟩
            · exact g1 x hx
          · rintro ⟨g1, -, g2⟩
            exact ⟨fun x hx => g1 x (by simp [hx]), g2⟩
        · rw [if_neg hsys]
          constructor
          · intro e; omega
          · rintro ⟨-, g, -⟩; exact absurd g hsys

/-- `kill` sends the signal to exactly what the operands stand for, in their order, also if one of them is wrong or the system refuses; it succeeds if every operand
stands for something and the system refuses nothing.

Partial: numbers that do not fit in the type of process IDs are excluded; see `kill_wraps`. -/
theorem kill_sends_partial {E : Env} (hT : Table.Ok E.T) {o : Job.Opts} (hj : Runs o True Job.init E.jobs) (sys : System) {args ops : List Str} {name : Option Str} (hu : Usage args name ops) (hne : ops ≠ [])
    {signum : Int} (hs : (name = none ∧ signum = E.sigterm) ∨ ∃ t, name = some t ∧ Signal E t signum ∧ ¬(E.posix = true ∧ "SIG".toList <+: t))
    (hr : ∀ s ∈ ops, ∀ n, Integer E.W.isSpace s n → -2 ^ 31 ≤ n ∧ n < 2 ^ 31) :
    ∃ calls st, killBuiltin E sys args = some ⟨calls, [], st⟩ ∧ Sends E signum ops calls ∧
      (st = .success ↔ (∀ s ∈ ops, ∃ p, Target E s p) ∧ ∀ a c b, calls = a ++ c :: b → sys a c = true) := by
  have ho : options E false false args = .send signum ops := by
    cases hu with
    | default he =>
      rcases hs with ⟨-, rfl⟩ | ⟨t, ht, -⟩
      · rw [options_ends E _ _ he]; rfl
      · cases ht
    | given hg he =>
      rcases hs with ⟨h, -⟩ | ⟨t, ht, hs, hp⟩
      · cases h
      · cases ht
        rw [options_given E hg, signal_parsed hT hs hp he]
  obtain ⟨calls, h1, h2, h3⟩ := sendLoop_spec hj sys signum ops [] hr
  cases ops with
  | nil => exact absurd rfl hne
  | cons s ops =>
    refine ⟨calls, if (sendLoop E sys signum [] (s :: ops)).2 = 0 then .success else .failure, ?_, h2, ?_⟩
    · unfold killBuiltin
      rw [ho]
      simp only
      rw [h1]
      rfl
    · simp only [List.nil_append] at h3
      rw [← h3]
      split <;> simp_all

/-- A number that does not fit is reduced: the signal is sent to a process that was not named. -/
theorem kill_wraps (E : Env) (sys : System) {p : Int} (h1 : -2 ^ 31 ≤ p) (h2 : p < 2 ^ 31) {s : Str} (hs : Numeral s (4294967296 + p).toNat) :
    ∃ st, killBuiltin E sys [s] = some ⟨[(p, E.sigterm)], [], st⟩ := by
  obtain ⟨c, r, rfl, hc⟩ := hs.head
  obtain ⟨e1, e2, e3⟩ := isDigit_sign hc
  have ho : options E false false [c :: r] = .send E.sigterm [c :: r] := by
    rw [options_ends E _ _ (.operands (ops := [c :: r]) ?_)]; rfl
    intro o ho
    cases ho
    left
    simpa using e2
  have hw : wcstoimax E.W (c :: r) = some (4294967296 + p) := by
    rw [integer_iff]
    refine ⟨?_, by omega, by omega⟩
    have := Integer.unsigned (isSpace := E.W.isSpace) (spaces := []) (by simp) hs
    rw [Int.toNat_of_nonneg (by omega)] at this
    exact this
  have ht : target E (c :: r) = some p := by
    unfold target
    rw [if_neg, hw]
    · simp only [Option.map_some, Option.some.injEq]
      unfold toPid
      omega
    · intro he
      simp only [List.head?_cons, Option.some.injEq] at he
      subst he
      revert hc; decide
  unfold killBuiltin
  rw [ho]
  simp only [sendLoop, ht, List.nil_append]
  exact ⟨_, rfl⟩

/-- Without operands, with an unknown signal, and in the POSIX mode with `SIG` before the name, no signal is sent. -/
theorem kill_refused {E : Env} (hT : Table.Ok E.T) (sys : System) {args ops : List Str} {name : Option Str} (hu : Usage args name ops)
    (h : ops = [] ∨ ∃ t, name = some t ∧ ((∀ n, ¬Signal E t n) ∨ (E.posix = true ∧ "SIG".toList <+: t))) (hf : ∀ t, name = some t → ¬Forbidden (t.map E.upper)) :
    ∃ st, killBuiltin E sys args = some ⟨[], [], st⟩ ∧ st ≠ .success := by
  have hposix : ∀ {t : Str} (more : List Str), E.posix = true ∧ "SIG".toList <+: t → parseSignalName E t more = .stop .error := by
    intro t more hp
    unfold parseSignalName
    rw [if_pos (by rw [Bool.and_eq_true, List.isPrefixOf_iff_prefix]; exact hp)]
  cases hu with
  | default he =>
    have : ops = [] := by
      rcases h with h | ⟨t, ht, -⟩
      · exact h
      · cases ht
    subst this
    unfold killBuiltin
    rw [options_ends E _ _ he]
    exact ⟨.error, rfl, by simp⟩
  | @given first more _ t hg he =>
    unfold killBuiltin
    rw [options_given E hg]
    by_cases hp : E.posix = true ∧ "SIG".toList <+: t
    · rw [hposix _ hp]
      exact ⟨.error, rfl, by simp⟩
    · by_cases hs : ∃ n, Signal E t n
      · obtain ⟨n, hs⟩ := hs
        have : ops = [] := by
          rcases h with h | ⟨t', ht, h | h⟩
          · exact h
          · cases ht; exact absurd hs (h n)
          · cases ht; exact absurd h hp
        subst this
        rw [signal_parsed hT hs hp he]
        exact ⟨.error, rfl, by simp⟩
      · rw [signal_unknown hT (fun n hn => hs ⟨n, hn⟩) (hf t rfl) hp]
        exact ⟨.failure, rfl, by simp⟩

/-! ## Listings -/

theorem printSignal_line (E : Env) (n : Int) (name : Str) (verbose : Bool) : Line E n name verbose (printSignal E n name verbose) := by
  unfold printSignal
  cases verbose with
  | false => exact .short
  | true =>
    have hn : Numeral (decimal n) n.toNat := decimal_numeral n.toNat
    have hsp : ∀ c ∈ List.replicate (10 - name.length) ' ', c = ' ' := fun c hc => (List.mem_replicate.1 hc).2
    simp only [Bool.not_true, Bool.false_eq_true, if_false]
    cases hd : E.describe n with
    | none =>
      have := Line.undescribed (E := E) (name := name) hn hsp hd
      simpa [pad10] using this
    | some d =>
      have := Line.described (E := E) (name := name) hn hsp hd
      simpa [pad10] using this

theorem lines_append {E : Env} {verbose : Bool} {a b : List (Int × Str)} {s t : Str} (h1 : Lines E verbose a s) (h2 : Lines E verbose b t) : Lines E verbose (a ++ b) (s ++ t) := by
  induction h1 with
  | nil => exact h2
  | cons hl _ ih =>
    rw [List.append_assoc]
    exact .cons hl ih

theorem printTable_lines (E : Env) (verbose : Bool) : ∀ table : List (Int × Str), Lines E verbose table (table.flatMap fun s => printSignal E s.1 s.2 verbose)
  | [] => .nil
  | s :: table => by
    rw [List.flatMap_cons]
    exact .cons (printSignal_line E s.1 s.2 verbose) (printTable_lines E verbose table)

theorem printRt_lines (E : Env) (verbose : Bool) : ∀ (n : Nat) (i : Int), ∃ rest, Lines E verbose rest (printRt E verbose i n) ∧
    (∀ e ∈ rest, i ≤ e.1 ∧ e.1 ≤ E.T.rtmax ∧ e.2 = getSignalName E.T e.1) ∧ ∀ k, i ≤ k → k ≤ E.T.rtmax → k < i + n → (k, getSignalName E.T k) ∈ rest
  | 0, i => ⟨[], .nil, by simp, fun k h1 h2 h3 => by omega⟩
  | n + 1, i => by
    obtain ⟨rest, h1, h2, h3⟩ := printRt_lines E verbose n (i + 1)
    unfold printRt
    split
    · refine ⟨(i, getSignalName E.T i) :: rest, .cons (printSignal_line ..) h1, ?_, ?_⟩
      · intro e he
        rcases List.mem_cons.1 he with rfl | he
        · exact ⟨Int.le_refl _, by assumption, rfl⟩
        · have := h2 e he
          exact ⟨by omega, this.2⟩
      · intro k hk1 hk2 hk3
        by_cases hk : k = i
        · subst hk; simp
        · exact List.mem_cons_of_mem _ (h3 k (by omega) hk2 (by omega))
    · exact ⟨[], .nil, by simp, fun k h1 h2 h3 => by omega⟩

/-- `kill -l` prints a line for every signal, and every line has a name of a signal that `kill -s` understands as this signal. -/
theorem kill_lists_all {E : Env} (hT : Table.Ok E.T) (sys : System) {args : List Str} {letters : List Char} (hu : ListUsage args letters []) :
    ∃ signals out, killBuiltin E sys args = some ⟨[], out, .success⟩ ∧ Lines E (letters.contains 'v') signals out ∧
      (∀ e ∈ signals, Name E.T e.2 e.1) ∧ ∀ n, 0 < n → Valid E.T n → ∃ name, (n, name) ∈ signals := by
  obtain ⟨rest, h1, h2, h3⟩ := printRt_lines E (letters.contains 'v') (E.T.rtmax - E.T.rtmin + 1).toNat E.T.rtmin
  have hp := hT.rtmin
  refine ⟨E.T.table ++ rest, _, ?_, lines_append (printTable_lines E _ E.T.table) h1, ?_, ?_⟩
  · unfold killBuiltin
    rw [options_list E hu]
    simp only [Bool.false_or]
    rfl
  · intro e he
    rcases List.mem_append.1 he with he | he
    · exact .table _ _ he
    · obtain ⟨g1, g2, g3⟩ := h2 e he
      rw [g3]
      exact name_spec (by omega) (.inr (.inl ⟨g1, g2⟩))
  · intro n h0 hv
    rcases hv with rfl | h | ⟨s, h⟩
    · omega
    · exact ⟨_, List.mem_append_right _ (h3 n h.1 h.2 (by omega))⟩
    · exact ⟨s, List.mem_append_left _ h⟩

theorem name_valid {T : Table} {n : Int} (h0 : n ≠ 0) (h : getSignalName T n ≠ []) : Valid T n := by
  unfold getSignalName at h
  rw [if_neg h0] at h
  split at h
  · exact .inr (.inl (by assumption))
  · split at h
    · rename_i s hs
      have := List.find?_some hs
      rw [beq_iff_eq] at this
      exact .inr (.inr ⟨s.2, by rw [← this]; exact List.mem_of_find?_eq_some hs⟩)
    · exact absurd rfl h

theorem xwcstoi_iff (W : World) (s : Str) (n : Int) : xwcstoi W s = some n ↔ Integer W.isSpace s n ∧ -2 ^ 31 ≤ n ∧ n < 2 ^ 31 := by
  unfold xwcstoi
  cases hw : wcstoimax W s with
  | none =>
    simp only [reduceCtorEq, false_iff]
    rintro ⟨h, h1, h2⟩
    rw [(integer_iff W s n).2 ⟨h, by omega, by omega⟩] at hw
    cases hw
  | some v =>
    simp only
    obtain ⟨g1, g2, g3⟩ := (integer_iff W s v).1 hw
    constructor
    · intro h
      split at h
      · cases h
      · cases h
        exact ⟨g1, by omega, by omega⟩
    · rintro ⟨h, h1, h2⟩
      have : v = n := by
        have := (integer_iff W s n).2 ⟨h, by omega, by omega⟩
        rw [hw] at this
        cases this; rfl
      subst this
      rw [if_neg (by omega)]

theorem integer_unique {W : World} {s : Str} {m n : Int} (hm : Integer W.isSpace s m) (hn : Integer W.isSpace s n) (h1 : -2 ^ 63 ≤ m) (h2 : m < 2 ^ 63) (h3 : -2 ^ 63 ≤ n) (h4 : n < 2 ^ 63) : m = n := by
  have a := (integer_iff W s m).2 ⟨hm, h1, h2⟩
  have b := (integer_iff W s n).2 ⟨hn, h3, h4⟩
  rw [a] at b
  cases b
  rfl

theorem list_operand {E : Env} (hT : Table.Ok E.T) {s : Str} (hf : ¬Forbidden (s.map E.upper)) :
    ∃ m, listNumber E s = some m ∧ ((0 < m ∧ getSignalName E.T m ≠ [] ∧ Lists E s m) ∨ ((m ≤ 0 ∨ getSignalName E.T m = []) ∧ ∀ n, ¬Lists E s n)) := by
  unfold listNumber
  have hname : (∀ k, Integer E.W.isSpace s k → k < 0 ∨ 2 ^ 31 ≤ k) → ∃ m, getSignalNumberToupper E.upper E.W E.T s = some m ∧
      ((0 < m ∧ getSignalName E.T m ≠ [] ∧ Lists E s m) ∨ ((m ≤ 0 ∨ getSignalName E.T m = []) ∧ ∀ n, ¬Lists E s n)) := by
    intro hk
    have hno : ∀ n, Lists E s n → getSignalNumberToupper E.upper E.W E.T s = some n ∧ 0 < n := by
      intro n hl
      cases hl with
      | number hi h1 h2 => have := hk _ hi; omega
      | name _ hd h0 => exact ⟨(number_spec hT _).1 n hd, h0⟩
    cases hg : getSignalNumberToupper E.upper E.W E.T s with
    | none => exact absurd ((number_spec (W := E.W) hT _).2.2.1 hg) hf
    | some m =>
      refine ⟨m, rfl, ?_⟩
      rcases (number_spec (W := E.W) hT _).2.2.2 m hg with rfl | hd
      · refine .inr ⟨.inl (by omega), fun n hl => ?_⟩
        have := hno n hl
        rw [hg] at this
        obtain ⟨e, h0⟩ := this
        cases e
        omega
      · have hv := denotes_valid hd hT
        have h0 := valid_nonneg hT hv
        by_cases hz : m = 0
        · subst hz
          refine .inr ⟨.inl (by omega), fun n hl => ?_⟩
          have := hno n hl
          rw [hg] at this
          obtain ⟨e, h0⟩ := this
          cases e
          omega
        · exact .inl ⟨by omega, name_ne_nil hT (name_spec hz hv), .name hk hd (by omega)⟩
  cases hx : xwcstoi E.W s with
  | none =>
    apply hname
    intro k hi
    by_cases h1 : k < 0
    · exact .inl h1
    · right
      apply Int.not_lt.1
      intro h2
      rw [(xwcstoi_iff _ _ _).2 ⟨hi, by omega, h2⟩] at hx
      cases hx
  | some k =>
    obtain ⟨hi, h1, h2⟩ := (xwcstoi_iff _ _ _).1 hx
    simp only
    by_cases h0 : 0 ≤ k
    · rw [if_pos h0]
      refine ⟨_, rfl, ?_⟩
      generalize hm : (if 384 ≤ k then k - 384 else if 128 ≤ k then k - 128 else k) = m
      have hst : (k < 128 ∧ m = k) ∨ (128 ≤ k ∧ k < 384 ∧ m = k - 128) ∨ (384 ≤ k ∧ m = k - 384) := by
        rw [← hm]
        split
        · omega
        · split <;> omega
      have honly : ∀ n, Lists E s n → n = m ∧ 0 < n ∧ Valid E.T n := by
        intro n hl
        cases hl with
        | @number k' _ hi' g1 g2 g3 g4 g5 =>
          have : k' = k := integer_unique hi' hi (by omega) (by omega) (by omega) (by omega)
          exact ⟨by omega, g5, g4⟩
        | name h => have := h k hi; omega
      by_cases hmv : 0 < m ∧ getSignalName E.T m ≠ []
      · exact .inl ⟨hmv.1, hmv.2, .number hi h0 h2 hst (name_valid (by omega) hmv.2) hmv.1⟩
      · refine .inr ⟨?_, fun n hl => ?_⟩
        · by_cases hp : 0 < m
          · exact .inr (Classical.not_not.1 fun h => hmv ⟨hp, h⟩)
          · exact .inl (by omega)
        · obtain ⟨rfl, g1, g2⟩ := honly n hl
          exact hmv ⟨g1, name_ne_nil hT (name_spec (by omega) g2)⟩
    · rw [if_neg h0]
      apply hname
      intro k' hi'
      by_cases hk' : k' < 0
      · exact .inl hk'
      · right
        apply Int.not_lt.1
        intro h3
        have : k' = k := integer_unique hi' hi (by omega) (by omega) (by omega) (by omega)
        omega

theorem listLoop_spec {E : Env} (hT : Table.Ok E.T) (verbose : Bool) : ∀ {ops : List Str}, (∀ s ∈ ops, ¬Forbidden (s.map E.upper)) →
    ∃ out errors rest, listLoop E verbose ops = some (out, errors) ∧ ListsAll E ops rest ∧ Lines E verbose rest out ∧ (errors = 0 ↔ ∀ s ∈ ops, ∃ n, Lists E s n)
  | [], _ => ⟨[], 0, [], rfl, .nil, .nil, by simp⟩
  | s :: ops, hf => by
    obtain ⟨out, errors, rest, h1, h2, h3, h4⟩ := listLoop_spec hT verbose (ops := ops) fun t ht => hf t (by simp [ht])
    obtain ⟨m, hm, ⟨g1, g2, g3⟩ | ⟨g1, g2⟩⟩ := list_operand hT (hf s (by simp))
    · refine ⟨printSignal E m (getSignalName E.T m) verbose ++ out, errors, (m, getSignalName E.T m) :: rest, ?_, .found g3 (name_spec (by omega) (name_valid (by omega) g2)) h2, .cons (printSignal_line ..) h3, ?_⟩
      · simp only [listLoop, hm, h1, Option.bind_eq_bind, Option.bind_some]
        rw [if_neg]
        rintro (h | h)
        · omega
        · exact g2 h
      · rw [h4]
        constructor
        · intro h t ht
          rcases List.mem_cons.1 ht with rfl | ht
          · exact ⟨m, g3⟩
          · exact h t ht
        · exact fun h t ht => h t (by simp [ht])
    · refine ⟨out, errors + 1, rest, ?_, .skipped g2 h2, h3, ?_⟩
      · simp only [listLoop, hm, h1, Option.bind_eq_bind, Option.bind_some]
        rw [if_pos g1]
      · constructor
        · intro h; omega
        · intro h
          obtain ⟨n, hn⟩ := h s (by simp)
          exact absurd hn (g2 n)

/-- `kill -l` with operands prints a line for each operand that means a signal, with a name of this signal; it succeeds if every operand does. No signal is sent. -/
theorem kill_lists {E : Env} (hT : Table.Ok E.T) (sys : System) {args ops : List Str} {letters : List Char} (hu : ListUsage args letters ops) (hne : ops ≠ []) (hf : ∀ s ∈ ops, ¬Forbidden (s.map E.upper)) :
    ∃ signals out st, killBuiltin E sys args = some ⟨[], out, st⟩ ∧ ListsAll E ops signals ∧ Lines E (letters.contains 'v') signals out ∧ (st = .success ↔ ∀ s ∈ ops, ∃ n, Lists E s n) := by
  obtain ⟨out, errors, rest, h1, h2, h3, h4⟩ := listLoop_spec hT (letters.contains 'v') hf
  cases ops with
  | nil => exact absurd rfl hne
  | cons s ops =>
    refine ⟨rest, out, if errors = 0 then .success else .failure, ?_, h2, h3, ?_⟩
    · unfold killBuiltin
      rw [options_list E hu]
      simp only [Bool.false_or, h1]
      rfl
    · rw [← h4]
      split <;> simp_all

/-- Every name that is printed may be given to `kill -s`. -/
theorem printed_understood {E : Env} (hT : Table.Ok E.T) {name : Str} {n : Int} (hn : Name E.T name n) (hup : ∀ c ∈ name, E.upper c = c) : Signal E name n := by
  refine .signal ?_ (name_pos hT hn)
  rw [List.map_congr_left hup, List.map_id']
  exact .plain _ _ hn

end Yash.Kill
