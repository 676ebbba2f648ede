import Verif.Leave.Spec
import Verif.Arith.NumProps
import Verif.TestBuiltin.Primary
import Verif.Exec.Model
/-! # Property C89: `break`, `continue`, `return` and `exit` do what their operands say -/
set_option autoImplicit false

namespace Yash.Leave

open Spec
open Yash.Arith (splitSign wcstolPrefix digitsValue signed_iff constant_iff constant_head)

theorem refused_error (E : Env) (s : State) : Refused E s (specialBuiltinError E 2 s) := by
  unfold Refused specialBuiltinError
  cases E.posix <;> cases E.special <;> cases E.interactive <;> simp

theorem count_iff {E : Env} {arg : Str} {n : Int} : Count E arg n ↔ Arith.Spec.Signed (arg.dropWhile E.W.isSpace) n := by
  constructor
  · rintro ⟨w, t, rfl, hw, ht⟩
    have hd : t.dropWhile E.W.isSpace = t := by
      have : ∃ c cs, t = c :: cs ∧ c ∈ "+-0123456789".toList := by
        cases ht with
        | plain h =>
          obtain ⟨c, cs, d, rfl, hd⟩ := constant_head h
          refine ⟨c, cs, rfl, ?_⟩
          obtain ⟨hd1, hd2⟩ := hd
          have key : ∀ d : Fin 10, ∀ c, ("0123456789abcdef".toList[d.val]? = some c ∨ "0123456789ABCDEF".toList[d.val]? = some c) → c ∈ "+-0123456789".toList := by
            intro d c h
            have : ∀ d : Fin 10, ∃ x, "0123456789abcdef".toList[d.val]? = some x ∧ "0123456789ABCDEF".toList[d.val]? = some x ∧ x ∈ "+-0123456789".toList := by
              intro d
              refine ⟨"0123456789".toList[d.val]'d.isLt, ?_⟩
              revert d
              decide
            obtain ⟨x, h1, h2, h3⟩ := this d
            rcases h with h | h
            · rw [h1] at h; cases h; exact h3
            · rw [h2] at h; cases h; exact h3
          exact key ⟨d, hd1⟩ c hd2
        | plus h => exact ⟨_, _, rfl, by decide⟩
        | minus h => exact ⟨_, _, rfl, by decide⟩
      obtain ⟨c, cs, rfl, hc⟩ := this
      simp [List.dropWhile, E.W.notSpace c hc]
    rw [List.dropWhile_append_of_pos hw, hd]
    exact ht
  · intro h
    refine ⟨arg.takeWhile E.W.isSpace, _, List.takeWhile_append_dropWhile.symm, ?_, h⟩
    intro c hc
    exact List.all_eq_true.1 (List.all_takeWhile (l := arg)) c hc

/-- The options that there are: `-i` and `-n` not in the POSIX mode. -/
theorem option_letters (E : Env) (c : Char) :
    ((Xgetopt.Spec.findShort (E.getopt iterOptions) c).isSome ↔ c = 'i' ∧ E.posix = false) ∧
    ((Xgetopt.Spec.findShort (E.getopt returnOptions) c).isSome ↔ c = 'n' ∧ E.posix = false) ∧
    ((Xgetopt.Spec.findShort (E.getopt forceOptions) c).isSome ↔ c = 'f') := by
  unfold Xgetopt.Spec.findShort Env.getopt iterOptions returnOptions forceOptions
  cases hp : E.posix <;> by_cases hc : c = '-' <;> simp [hc, @eq_comm Char _ c] <;> grind

theorem count_unique {E : Env} {arg : Str} {m n : Int} (h1 : Count E arg m) (h2 : Count E arg n) : m = n := by
  rw [count_iff, signed_iff] at h1 h2
  obtain ⟨a, ha, rfl⟩ := h1
  obtain ⟨b, hb, rfl⟩ := h2
  have := ((constant_iff _ _).1 ha).2
  rw [((constant_iff _ _).1 hb).2] at this
  cases this
  rfl

theorem xwcstoul_iff {E : Env} {arg : Str} {m : Nat} : xwcstoul E.W.isSpace arg = some m ↔
    ∃ n : Int, Count E arg n ∧ -(2 ^ 64) < n ∧ n < 2 ^ 64 ∧ (m : Int) = if n < 0 then 2 ^ 64 + n else n := by
  simp only [count_iff, signed_iff]
  unfold xwcstoul
  dsimp only
  generalize splitSign (arg.dropWhile E.W.isSpace) = p
  obtain ⟨neg, t⟩ := p
  dsimp only
  have hc := constant_iff t
  split
  · rename_i he
    simp only [reduceCtorEq, false_iff]
    rintro ⟨n, ⟨k, hk, _⟩, _⟩
    exact ((hc k).1 hk).1 he
  · rename_i hne
    cases hd : digitsValue (wcstolPrefix t).1 0 (wcstolPrefix t).2 with
    | none =>
      simp only [reduceCtorEq, false_iff]
      rintro ⟨n, ⟨k, hk, _⟩, _⟩
      have := ((hc k).1 hk).2
      rw [hd] at this; cases this
    | some v =>
      have hv : ∀ k, Arith.Spec.Constant t k ↔ k = v := by
        intro k
        rw [hc k]
        constructor
        · rintro ⟨_, h⟩; rw [hd] at h; cases h; rfl
        · rintro rfl; exact ⟨hne, hd⟩
      simp only [hv]
      constructor
      · intro h
        split at h
        · cases h
          refine ⟨if neg = true then -(v : Int) else v, ⟨v, rfl, rfl⟩, ?_⟩
          cases neg
          · simp; omega
          · simp; split <;> omega
        · cases h
      · rintro ⟨n, ⟨k, rfl, rfl⟩, h1, h2, h3⟩
        cases neg
        · simp at h1 h2 h3 ⊢
          split at h3 <;> omega
        · simp at h1 h2 h3 ⊢
          split at h3 <;> omega

theorem any_letter {reports : List Xgetopt.Report} {c : Char} : (reports.any fun o => o.1.short == c) = (reports.map fun o => o.1.short).contains c := by
  induction reports with
  | nil => rfl
  | cons r rs ih =>
    rw [List.any_cons, List.map_cons, List.contains_cons, ih, Bool.beq_comm]

theorem breakCount_eq {E : Env} {isBreak : Bool} {count : Nat} {s : State} (h : s.loopnest ≠ 0) : breakCount E isBreak count s =
    if isBreak then .stay { s with breakloopnest := s.loopnest - min count s.loopnest } 0
    else .stay { s with breakloopnest := s.loopnest - min count s.loopnest + 1, exc := .cont } 0 := by
  unfold breakCount
  rw [if_neg h]
  have : (if count > s.loopnest then s.loopnest else count) = min count s.loopnest := by
    split <;> omega
  simp only [this]

/-- `break n` leaves, and `continue n` continues, the `n`-th loop around it, or the outermost one if there are fewer; without operand, the innermost one.
Nothing else changes, and the exit status is 0. -/
theorem break_leaves {E : Env} {args operands : List Str} {s : State} {n : Nat} (hg : Given E iterOptions args [] operands)
    (ho : (operands = [] ∧ n = 1) ∨ ∃ arg, operands = [arg] ∧ Count E arg n) (h1 : 0 < n) (h2 : n < 2 ^ 64) (hl : 0 < s.loopnest) (hm : s.loopnest < 2 ^ 32) :
    breakBuiltin E true args s = .stay { s with breakloopnest := s.loopnest - min n s.loopnest } 0 ∧
    breakBuiltin E false args s = .stay { s with breakloopnest := s.loopnest - min n s.loopnest + 1, exc := .cont } 0 := by
  obtain ⟨reports, used, hp, hr⟩ := hg
  have key : ∀ b, breakBuiltin E b args s = breakCount E b n s ∨ ∃ k, n ≥ k ∧ k ≥ s.loopnest ∧ breakBuiltin E b args s = breakCount E b k s := by
    intro b
    unfold breakBuiltin
    rw [hp]
    simp only [any_letter, ← hr]
    rcases ho with ⟨rfl, rfl⟩ | ⟨arg, rfl, hc⟩
    · exact .inl rfl
    · simp only [List.contains_nil, Bool.false_eq_true, if_false, List.length_singleton, gt_iff_lt, Nat.lt_irrefl]
      rw [(xwcstoul_iff (m := n)).2 ⟨n, hc, by omega, by omega, by rw [if_neg (by omega)]⟩]
      simp only
      rw [if_neg (by omega)]
      split
      · exact .inr ⟨_, by omega, by omega, rfl⟩
      · exact .inl rfl
  constructor
  · rcases key true with h | ⟨k, hk1, hk2, h⟩
    · rw [h, breakCount_eq (by omega)]; rfl
    · rw [h, breakCount_eq (by omega), show min k s.loopnest = min n s.loopnest by omega]; rfl
  · rcases key false with h | ⟨k, hk1, hk2, h⟩
    · rw [h, breakCount_eq (by omega)]; rfl
    · rw [h, breakCount_eq (by omega), show min k s.loopnest = min n s.loopnest by omega]; rfl

/-- This is what the model of the execution of commands (C47, C49) does for `break n` and `continue n`. -/
theorem break_executed {σ ω ρ ι : Type} (X : Exec.Shell σ ω ρ ι) {E : Env} {args operands : List Str} {s : State} {n : Nat} (hg : Given E iterOptions args [] operands)
    (ho : (operands = [] ∧ n = 1) ∨ ∃ arg, operands = [arg] ∧ Count E arg n) (h1 : 0 < n) (h2 : n < 2 ^ 64) (hl : 0 < s.loopnest) (hm : s.loopnest < 2 ^ 32)
    (t : Exec.St σ) (ht : t.loopnest = s.loopnest) :
    (∃ s', breakBuiltin E true args s = .stay s' 0 ∧ Exec.breakBuiltin X false n t = .ok { t with breakloopnest := s'.breakloopnest, status := 0 }) ∧
    (∃ s', breakBuiltin E false args s = .stay s' 0 ∧ s'.exc = .cont ∧ Exec.breakBuiltin X true n t = .ok { t with breakloopnest := s'.breakloopnest, exc := .cont, status := 0 }) := by
  obtain ⟨h3, h4⟩ := break_leaves hg ho h1 h2 hl hm
  have hz : (t.loopnest == 0) = false := by simp; omega
  have hmin : (if n > t.loopnest then t.loopnest else n) = min n s.loopnest := by
    rw [ht]; split <;> omega
  refine ⟨⟨_, h3, ?_⟩, ⟨_, h4, rfl, ?_⟩⟩
  · unfold Exec.breakBuiltin
    rw [hz]
    simp only [Bool.false_eq_true, if_false, hmin]
    simp [ht, Exec.Exit_SUCCESS]
  · unfold Exec.breakBuiltin
    rw [hz]
    simp only [Bool.false_eq_true, if_false, hmin]
    simp [ht, Exec.Exit_SUCCESS]

/-- Errors: more than one operand (or any with `-i`), an unknown option, an operand that is not an integer constant, zero, or too large, or no loop around the command.
Partial: negative numbers should be refused as well, but are not (`break_negative`). -/
theorem break_refused_partial {E : Env} {args : List Str} {s : State} (b : Bool)
    (h : (∃ reports used operands e, Xgetopt.Spec.parse (E.getopt iterOptions) none args = ⟨reports, used, operands, .error e⟩ ∧ '-' ∉ reports.map fun o => o.1.short) ∨
      (∃ letters operands, Given E iterOptions args letters operands ∧ '-' ∉ letters ∧ (2 ≤ operands.length ∨ ('i' ∈ letters ∧ operands ≠ []))) ∨
      (∃ arg, Given E iterOptions args [] [arg] ∧ ∀ n, Count E arg n → n = 0 ∨ n ≤ -(2 ^ 64) ∨ 2 ^ 64 ≤ n) ∨
      (∃ operands, Given E iterOptions args [] operands ∧ s.loopnest = 0)) :
    Refused E s (breakBuiltin E b args s) := by
  have goal : breakBuiltin E b args s = specialBuiltinError E 2 s := by
    rcases h with ⟨reports, used, operands, e, hp, hh⟩ | ⟨letters, operands, ⟨reports, used, hp, rfl⟩, hh, hn⟩ | ⟨arg, ⟨reports, used, hp, hr⟩, hn⟩ | ⟨operands, ⟨reports, used, hp, hr⟩, hn⟩
    · unfold breakBuiltin
      rw [hp]
      simp only [any_letter]
      rw [if_neg (by simpa using hh)]
    · unfold breakBuiltin
      rw [hp]
      simp only [any_letter]
      rw [if_neg (by simpa using hh), if_pos]
      rcases hn with hn | ⟨hi, hn⟩
      · split <;> omega
      · have : operands.length ≠ 0 := by simpa using hn
        rw [if_pos (by simpa using hi)]
        omega
    · unfold breakBuiltin
      rw [hp]
      simp only [any_letter, ← hr, List.contains_nil, Bool.false_eq_true, if_false, List.length_singleton, gt_iff_lt, Nat.lt_irrefl]
      cases hx : xwcstoul E.W.isSpace arg with
      | none => rfl
      | some m =>
        obtain ⟨n, h1, h2, h3, h4⟩ := xwcstoul_iff.1 hx
        rcases hn n h1 with h | h | h
        · simp only
          rw [if_pos]
          rw [h] at h4
          simp at h4
          exact h4
        · omega
        · omega
    · unfold breakBuiltin
      rw [hp]
      simp only [any_letter, ← hr, List.contains_nil, Bool.false_eq_true, if_false]
      have hb : ∀ k, breakCount E b k s = specialBuiltinError E 2 s := by
        intro k; unfold breakCount; rw [if_pos hn]
      split
      · rfl
      · split
        · exact hb 1
        · split
          · rfl
          · split
            · rfl
            · split <;> exact hb _
  rw [goal]
  exact refused_error E s

/-- `break -- -n` is not refused: the number is taken modulo 2^64, so that (unless it is near 2^64) all loops are left. -/
theorem break_negative {E : Env} {args : List Str} {arg : Str} {s : State} {n : Int} (hg : Given E iterOptions args [] [arg]) (hc : Count E arg n) (h1 : n < 0)
    (h2 : -(2 ^ 63) ≤ n) (hl : 0 < s.loopnest) (hm : s.loopnest < 2 ^ 32) : breakBuiltin E true args s = .stay { s with breakloopnest := 0 } 0 := by
  obtain ⟨reports, used, hp, hr⟩ := hg
  unfold breakBuiltin
  rw [hp]
  simp only [any_letter, ← hr, List.contains_nil, Bool.false_eq_true, if_false, List.length_singleton, gt_iff_lt, Nat.lt_irrefl]
  rw [(xwcstoul_iff (m := (2 ^ 64 + n).toNat)).2 ⟨n, hc, by omega, by omega, by rw [if_pos h1]; omega⟩]
  simp only
  rw [if_neg (by omega), if_pos (by omega), breakCount_eq (by omega), show min 4294967295 s.loopnest = s.loopnest by omega]
  simp

/-- `break -i` and `continue -i` end, or go on with, the iteration; outside of one they fail without any effect. The exit status is that of the last command. -/
theorem break_iteration {E : Env} {args : List Str} {letters : List Char} {s : State} (b : Bool) (hg : Given E iterOptions args letters []) (hi : 'i' ∈ letters) (hh : '-' ∉ letters) :
    breakBuiltin E b args s = if s.iterating then .stay { s with exc := if b then .breakIteration else .contIteration } s.laststatus else .stay s 2 := by
  obtain ⟨reports, used, hp, rfl⟩ := hg
  unfold breakBuiltin
  rw [hp]
  simp only [any_letter]
  rw [if_neg (by simpa using hh)]
  have : (reports.map fun o => o.1.short).contains 'i' = true := by simpa using hi
  simp only [this, if_true, List.length_nil]
  cases s.iterating <;> rfl

theorem valid_iff {E : Env} {arg : Str} {n : Int} : validStatus E arg = some n ↔ ExitStatus E arg n := by
  unfold validStatus ExitStatus
  cases hx : TestBuiltin.xwcstoi E.W arg with
  | none =>
    simp only [reduceCtorEq, false_iff]
    rintro ⟨h1, h2, h3⟩
    rw [(TestBuiltin.xwcstoi_iff E.W arg n).2 ⟨h1, by omega, h3⟩] at hx
    cases hx
  | some m =>
    have hm := (TestBuiltin.xwcstoi_iff E.W arg m).1 hx
    simp only
    constructor
    · intro h
      split at h
      · cases h
      · cases h
        exact ⟨hm.1, by omega, hm.2.2⟩
    · rintro ⟨h1, h2, h3⟩
      have := (TestBuiltin.xwcstoi_iff E.W arg n).2 ⟨h1, by omega, h3⟩
      rw [hx] at this
      cases this
      rw [if_neg (by omega)]

/-- `return n` returns with the status `n`, and without operand with that of the last command, which in a trap is the last one before the trap. With `-n`, nothing is
left, and only the status is set. An interactive shell itself cannot be left in this way. -/
theorem return_returns {E : Env} {args operands : List Str} {letters : List Char} {s : State} {n : Int} (hg : Given E returnOptions args letters operands) (hh : '-' ∉ letters)
    (ho : (operands = [] ∧ ((0 ≤ s.savelaststatus ∧ n = s.savelaststatus) ∨ (s.savelaststatus < 0 ∧ n = s.laststatus))) ∨ ∃ arg, operands = [arg] ∧ ExitStatus E arg n) :
    ('n' ∈ letters → returnBuiltin E args s = .stay s n) ∧
    ('n' ∉ letters → s.noreturn = true → E.interactive = true → returnBuiltin E args s = .stay s 1) ∧
    ('n' ∉ letters → s.noreturn = false ∨ E.interactive = false → returnBuiltin E args s = .stay { s with exc := .ret } n) := by
  obtain ⟨reports, used, hp, rfl⟩ := hg
  have key : returnBuiltin E args s = returnStatus E ((reports.map fun o => o.1.short).contains 'n') n s := by
    unfold returnBuiltin
    rw [hp]
    simp only [any_letter]
    rw [if_neg (by simpa using hh)]
    rcases ho with ⟨rfl, h⟩ | ⟨arg, rfl, h⟩
    · simp only
      rcases h with ⟨h, rfl⟩ | ⟨h, rfl⟩
      · rw [if_pos h]
      · rw [if_neg (by omega)]
    · simp only
      rw [valid_iff.2 h]
  rw [key]
  generalize reports.map (fun o => o.1.short) = letters at *
  unfold returnStatus
  refine ⟨fun h => ?_, fun h h1 h2 => ?_, fun h h1 => ?_⟩
  · have : letters.contains 'n' = true := by simpa using h
    simp only [this]; rfl
  · have : letters.contains 'n' = false := by simpa using h
    simp only [this, h1, h2]; rfl
  · have : letters.contains 'n' = false := by simpa using h
    simp only [this]
    rcases h1 with h1 | h1 <;> simp [h1]

/-- If the operand of `return` is not an exit status, that is an error, but (if the shell does not exit) the function is left all the same, with the status 2. -/
theorem return_invalid {E : Env} {args : List Str} {arg : Str} {s : State} (hg : Given E returnOptions args [] [arg]) (hn : ∀ n, ¬ExitStatus E arg n)
    (hr : s.noreturn = false ∨ E.interactive = false) :
    returnBuiltin E args s = if E.posix = true ∧ E.special = true ∧ E.interactive = false then .exit s 2 else .stay { s with exc := .ret } 2 := by
  obtain ⟨reports, used, hp, hr'⟩ := hg
  unfold returnBuiltin
  rw [hp]
  simp only [any_letter, ← hr', List.contains_nil, Bool.false_eq_true, if_false]
  have : validStatus E arg = none := by
    rw [Option.eq_none_iff_forall_ne_some]
    intro n h
    exact hn n (valid_iff.1 h)
  rw [this]
  simp only
  unfold specialBuiltinError returnStatus
  cases E.posix <;> cases E.special <;> rcases hr with h | h <;> cases hi : E.interactive <;> simp_all

/-- `return` with more than one operand or an unknown option does nothing. -/
theorem return_refused {E : Env} {args : List Str} {s : State}
    (h : (∃ reports used operands e, Xgetopt.Spec.parse (E.getopt returnOptions) none args = ⟨reports, used, operands, .error e⟩ ∧ '-' ∉ reports.map fun o => o.1.short) ∨
      (∃ letters operands, Given E returnOptions args letters operands ∧ '-' ∉ letters ∧ 2 ≤ operands.length)) :
    Refused E s (returnBuiltin E args s) := by
  have goal : returnBuiltin E args s = specialBuiltinError E 2 s := by
    rcases h with ⟨reports, used, operands, e, hp, hh⟩ | ⟨letters, operands, ⟨reports, used, hp, rfl⟩, hh, hn⟩
    · unfold returnBuiltin
      rw [hp]
      simp only [any_letter]
      rw [if_neg (by simpa using hh)]
    · unfold returnBuiltin
      rw [hp]
      simp only [any_letter]
      rw [if_neg (by simpa using hh)]
      split
      · simp at hn
      · simp at hn
      · rfl
  rw [goal]
  exact refused_error E s

/-- Whether `exit` warns about stopped jobs instead of exiting. -/
def Warns (E : Env) (letters : List Char) (s : State) : Prop := E.interactive = true ∧ 0 < E.stopped ∧ s.forceexit = false ∧ 'f' ∉ letters

def exitCode (E : Env) : List Str → Int
  | [] => -1
  | arg :: _ => match validStatus E arg with
    | some n => n
    | none => 2

theorem exit_eq {E : Env} {args operands : List Str} {letters : List Char} {s : State} (hg : Given E forceOptions args letters operands) (hh : '-' ∉ letters)
    (hl : operands.length ≤ 1) :
    (Warns E letters s → exitBuiltin E args s = .stay { s with forceexit := true, nextforceexit := true } 1) ∧
    (¬Warns E letters s → ∃ s', exitBuiltin E args s = .exit s' (exitCode E operands) ∧ s' = { s with forceexit := s'.forceexit }) := by
  obtain ⟨reports, used, hp, rfl⟩ := hg
  unfold exitBuiltin
  rw [hp]
  simp only [any_letter]
  rw [if_neg (by simpa using hh), if_neg (by omega)]
  generalize reports.map (fun o => o.1.short) = letters at *
  unfold Warns
  constructor
  · rintro ⟨h1, h2, h3, h4⟩
    have : letters.contains 'f' = false := by simpa using h4
    simp only [this, h1, Bool.false_eq_true, if_false]
    rw [if_pos (by simp [h3, h2])]
  · intro h
    refine ⟨if letters.contains 'f' = true then { s with forceexit := true } else s, ?_, ?_⟩
    · rw [if_neg]
      · match operands with
        | [] => rfl
        | arg :: _ =>
          simp only [exitCode]
          cases validStatus E arg <;> rfl
      · intro h'
        simp only [Bool.and_eq_true, Bool.not_eq_true', decide_eq_true_eq] at h'
        obtain ⟨⟨h1, h2⟩, h3⟩ := h'
        apply h
        split at h2
        · cases h2
        · rename_i hf
          exact ⟨h1, h3, h2, by simpa using hf⟩
    · split <;> rfl

/-- `exit n` exits with the status `n`, `exit` with that of the last command (-1 stands for it), and `exit` with an operand that is not an exit status with 2,
unless there is a warning. -/
theorem exit_status {E : Env} {args operands : List Str} {letters : List Char} {s : State} (hg : Given E forceOptions args letters operands) (hh : '-' ∉ letters)
    (hw : E.interactive = false ∨ E.stopped = 0 ∨ s.forceexit = true ∨ 'f' ∈ letters) :
    (operands = [] → ∃ s', exitBuiltin E args s = .exit s' (-1)) ∧
    (∀ arg n, operands = [arg] → ExitStatus E arg n → ∃ s', exitBuiltin E args s = .exit s' n) ∧
    (∀ arg, operands = [arg] → (∀ n, ¬ExitStatus E arg n) → ∃ s', exitBuiltin E args s = .exit s' 2) := by
  have hnw : ¬Warns E letters s := by
    rintro ⟨h1, h2, h3, h4⟩
    rcases hw with h | h | h | h
    · rw [h] at h1; cases h1
    · omega
    · rw [h] at h3; cases h3
    · exact h4 h
  refine ⟨?_, ?_, ?_⟩
  · rintro rfl
    obtain ⟨s', h, -⟩ := (exit_eq hg hh (by simp)).2 hnw
    exact ⟨s', h⟩
  · rintro arg n rfl hs
    obtain ⟨s', h, -⟩ := (exit_eq hg hh (by simp)).2 hnw
    refine ⟨s', ?_⟩
    rw [h]
    simp only [exitCode, valid_iff.2 hs]
  · rintro arg rfl hs
    obtain ⟨s', h, -⟩ := (exit_eq hg hh (by simp)).2 hnw
    refine ⟨s', ?_⟩
    rw [h]
    unfold exitCode
    simp only
    cases hx : validStatus E arg with
    | none => rfl
    | some m => exact absurd (valid_iff.1 hx) (hs m)

/-- `exit` with more than one operand or an unknown option does not exit, except that errors of special built-ins make a POSIXly-correct shell exit that is not interactive. -/
theorem exit_refused {E : Env} {args : List Str} {s : State}
    (h : (∃ reports used operands e, Xgetopt.Spec.parse (E.getopt forceOptions) none args = ⟨reports, used, operands, .error e⟩ ∧ '-' ∉ reports.map fun o => o.1.short) ∨
      (∃ letters operands, Given E forceOptions args letters operands ∧ '-' ∉ letters ∧ 2 ≤ operands.length)) :
    ∃ b, Refused E { s with forceexit := b } (exitBuiltin E args s) := by
  rcases h with ⟨reports, used, operands, e, hp, hh⟩ | ⟨letters, operands, ⟨reports, used, hp, rfl⟩, hh, hn⟩
  · refine ⟨if (reports.map fun o => o.1.short).contains 'f' = true then true else s.forceexit, ?_⟩
    unfold exitBuiltin
    rw [hp]
    simp only [any_letter]
    have hm : (reports.map fun o => o.1.short).contains '-' = false := by simpa using hh
    rw [hm]
    cases (reports.map fun o => o.1.short).contains 'f' <;> exact refused_error E _
  · refine ⟨if (reports.map fun o => o.1.short).contains 'f' = true then true else s.forceexit, ?_⟩
    unfold exitBuiltin
    rw [hp]
    simp only [any_letter]
    have hm : (reports.map fun o => o.1.short).contains '-' = false := by simpa using hh
    rw [hm]
    have hn' : operands.length > 1 := hn
    simp only [Bool.false_eq_true, if_false, hn', if_true]
    cases (reports.map fun o => o.1.short).contains 'f' <;> exact refused_error E _

theorem runCmds_flags {E : Env} (hi : E.interactive = true) (hs : 0 < E.stopped) : ∀ {l : List Cmd} {s s' : State}, PlainLine E l → runCmds E l s = some s' →
    (s'.forceexit = true ↔ s.forceexit = true ∨ ∃ args, Cmd.exit args ∈ l) ∧ (s'.nextforceexit = true ↔ s.nextforceexit = true ∨ (∃ args, Cmd.exit args ∈ l) ∨ Cmd.jobs ∈ l)
  | [], s, s', _, h => by cases h; simp
  | c :: l, s, s', hp, h => by
    rw [runCmds] at h
    obtain ⟨s1, h1, h2⟩ := Option.bind_eq_some_iff.1 h
    have ih := runCmds_flags hi hs (l := l) (fun args ha => hp args (by simp [ha])) h2
    cases c with
    | exit args =>
      obtain ⟨operands, hg, hl⟩ := hp args (by simp)
      have hx := exit_eq (s := s) hg (by simp) hl
      unfold runCmd at h1
      by_cases hw : Warns E [] s
      · simp only [hx.1 hw] at h1
        cases h1
        simp [ih.1, ih.2]
      · obtain ⟨s2, hx, _⟩ := hx.2 hw
        simp only [hx] at h1
        cases h1
    | jobs =>
      cases h1
      rw [ih.1, ih.2]
      simp
    | other =>
      cases h1
      rw [ih.1, ih.2]
      simp

theorem runLines_append {E : Env} : ∀ (ls ls' : List (List Cmd)) (s : State), runLines E (ls ++ ls') s = (runLines E ls s).bind (runLines E ls')
  | [], _, _ => rfl
  | l :: ls, ls', s => by
    rw [List.cons_append, runLines, runLines]
    cases runCmds E l (nextLine s) with
    | none => rfl
    | some s1 => exact runLines_append ls ls' s1

/-- With stopped jobs, `exit` ends an interactive shell only after a warning (or a list of the jobs): exactly if `exit` came before in the same line, or `exit` or `jobs`
in the line before. -/
theorem exit_warned {E : Env} (hi : E.interactive = true) (hs : 0 < E.stopped) {ls : List (List Cmd)} {before : List Cmd} {args : List Str} {s s1 s2 : State}
    (hf : s.nextforceexit = false) (hl : ∀ l ∈ ls, PlainLine E l) (hb : PlainLine E before) (ha : PlainExit E args)
    (h1 : runLines E ls s = some s1) (h2 : runCmds E before (nextLine s1) = some s2) :
    runCmd E (.exit args) s2 = none ↔ (∃ a, Cmd.exit a ∈ before) ∨ ∃ earlier last, ls = earlier ++ [last] ∧ ((∃ a, Cmd.exit a ∈ last) ∨ Cmd.jobs ∈ last) := by
  obtain ⟨operands, hg, hop⟩ := ha
  have hx := exit_eq (s := s2) hg (by simp) hop
  have key : runCmd E (.exit args) s2 = none ↔ s2.forceexit = true := by
    unfold runCmd
    by_cases hw : Warns E [] s2
    · simp only [hx.1 hw]
      simp [hw.2.2.1]
    · obtain ⟨s3, hx, _⟩ := hx.2 hw
      simp only [hx, true_iff]
      cases hfx : s2.forceexit with
      | true => rfl
      | false => exact absurd ⟨hi, hs, hfx, by simp⟩ hw
  rw [key, (runCmds_flags hi hs hb h2).1]
  have : s1.nextforceexit = true ↔ ∃ earlier last, ls = earlier ++ [last] ∧ ((∃ a, Cmd.exit a ∈ last) ∨ Cmd.jobs ∈ last) := by
    rcases List.eq_nil_or_concat ls with rfl | ⟨earlier, last, rfl⟩
    · cases h1
      simp [hf]
    · rw [List.concat_eq_append, runLines_append] at h1
      obtain ⟨s0, h3, h4⟩ := Option.bind_eq_some_iff.1 h1
      rw [runLines] at h4
      obtain ⟨s5, h5, h6⟩ := Option.bind_eq_some_iff.1 h4
      cases h6
      rw [(runCmds_flags hi hs (hl last (by simp)) h5).2]
      simp only [nextLine, Bool.false_eq_true, false_or, List.concat_eq_append]
      constructor
      · intro h; exact ⟨earlier, last, rfl, h⟩
      · rintro ⟨e, l, h, h'⟩
        obtain ⟨-, h⟩ := List.append_inj' h rfl
        cases h
        exact h'
  rw [← this, show (nextLine s1).forceexit = s1.nextforceexit from rfl]
  exact Or.comm

/-- The exit status of the shell is the one that was asked for, or that of the last command; the `EXIT` trap changes it only by `exit` with an operand. -/
theorem exit_trap (trap : Option (Int → TrapEnd)) (laststatus status : Int) :
    ∃ asked, ((0 ≤ status ∧ asked = status) ∨ (status < 0 ∧ asked = laststatus)) ∧
      (∀ t n, trap = some t → (∃ l, t asked = .exits l n) → 0 ≤ n → exitShellWithStatus trap laststatus status = n) ∧
      ((∀ t l n, trap = some t → t asked = .exits l n → n < 0) → exitShellWithStatus trap laststatus status = asked) := by
  refine ⟨if status ≥ 0 then status else laststatus, ?_, ?_, ?_⟩
  · split
    · left; exact ⟨by omega, rfl⟩
    · right; exact ⟨by omega, rfl⟩
  · rintro t n rfl ⟨l, h⟩ hn
    unfold exitShellWithStatus
    simp only [h]
    rw [if_pos (by omega)]
  · intro h
    unfold exitShellWithStatus
    cases trap with
    | none => rfl
    | some t =>
      simp only
      cases ht : t (if status ≥ 0 then status else laststatus) with
      | finished l => simp only
      | exits l n =>
        have := h t l n rfl ht
        simp only
        rw [if_neg (by omega)]

end Yash.Leave
