import Verif.Arith.Spec
import Verif.Arith.LongProps
/-!
# The operations on values agree with the specification
-/
set_option autoImplicit false

namespace Yash.Arith

section
variable {D E : Type} (cfg : Cfg D E)

theorem long_zero_eq : (⟨0, by decide, by decide⟩ : Long) = Long.zero := rfl
theorem long_one_eq : (⟨1, by decide, by decide⟩ : Long) = Long.one := rfl

theorem coerceNumber_eq (v : Value D) (st : St E) :
    coerceNumber cfg v st = Spec.number cfg v st := by
  cases v with
  | var x =>
    simp only [coerceNumber, Spec.number, Spec.bad, St.fail]
    generalize cfg.getvar st.env x = g
    obtain ⟨g, env⟩ := g
    cases g with
    | none => rfl
    | some s =>
      cases s with
      | nil => rfl
      | cons c s =>
        simp only [reduceCtorEq, if_false]
        cases xwcstol cfg (c :: s) with
        | some n => rfl
        | none =>
          cases cfg.posix
          · simp only [Bool.not_false, if_true, Bool.false_eq_true, if_false]
            cases cfg.strtod (c :: s) <;> rfl
          · simp
  | _ => rfl

theorem coerceInteger_eq (v : Value D) (st : St E) :
    coerceInteger cfg v st = Spec.integer cfg v st := by
  simp only [coerceInteger, Spec.integer, coerceNumber_eq, St.undefined]
  generalize Spec.number cfg v st = r
  obtain ⟨r, st⟩ := r
  cases r with
  | dbl d => simp only; cases cfg.dToLong d <;> rfl
  | _ => rfl

/-- The number of a value is never a variable. -/
theorem number_not_var {v : Value D} {st st' : St E} {x : List Char}
    (h : Spec.number cfg v st = (.var x, st')) : False := by
  cases v with
  | var y =>
    simp only [Spec.number, Spec.bad] at h
    repeat' split at h
    all_goals simp at h
  | _ => simp [Spec.number] at h

theorem ofOutcome_eq (o : Outcome) (st : St E) :
    (ofOutcome (some o) st : Value D × St E) = Spec.outcome o st := by
  cases o <;> rfl

theorem truth_eq (v : Value D) : truth cfg v = Spec.nonzero cfg v := by
  cases v with
  | long n =>
    simp only [truth, Spec.nonzero]
    congr 1
    rw [Bool.eq_iff_iff]; simp
  | _ => rfl

theorem ofBool_eq (b : Bool) : (Value.long (Long.ofBool b) : Value D) = Spec.ofBool b := by
  cases b <;> rfl

theorem arithValue_eq (op : Op1) (a b : Value D) (st : St E) :
    doBinaryCalculation cfg (.op1 op) a b st = Spec.arithValue cfg op a b st := by
  simp only [doBinaryCalculation, coerceType, Spec.arithValue, Spec.mixed, coerceNumber_eq]
  cases Spec.number cfg a st with
  | mk a st =>
    simp only
    cases Spec.number cfg b st with
    | mk b st =>
      cases a <;> cases b <;> simp only [C08_arithmetic, ofOutcome_eq, Spec.bad, St.fail]
      all_goals (split <;> simp_all)

theorem compareValue_eq (op : Cmp) (a b : Value D) (st : St E) :
    doComparison cfg op a b st = Spec.compareValue cfg op a b st := by
  simp only [doComparison, coerceType, Spec.compareValue, Spec.mixed, coerceNumber_eq]
  cases Spec.number cfg a st with
  | mk a st =>
    simp only
    cases Spec.number cfg b st with
    | mk b st =>
      cases a <;> cases b <;> simp only [ofBool_eq]
      rename_i a b
      rcases C08_comparison op a b with ⟨h1, h2⟩ | ⟨h1, h2⟩
      · have : longComparison op a b = Long.one := Long.ext h1
        rw [this]; simp [h2, Spec.ofBool, Long.one]
      · have : longComparison op a b = Long.zero := Long.ext h1
        rw [this]; simp [h2, Spec.ofBool, Long.zero]

theorem bitsValue_eq (op : Op2) (a b : Value D) (st : St E) :
    doBinaryCalculation cfg (.op2 op) a b st = Spec.bitsValue cfg op a b st := by
  simp only [doBinaryCalculation, Spec.bitsValue, coerceInteger_eq]
  cases Spec.integer cfg a st with
  | mk a st =>
    simp only
    cases Spec.integer cfg b st with
    | mk b st =>
      cases a <;> cases b <;> simp only [C08_bits, ofOutcome_eq]

theorem formatLong_zero : formatLong .zero = ['0'] := rfl

theorem valueToString_eq (v : Value D) (st : St E) :
    valueToString cfg v st = Spec.text cfg v st := by
  cases v with
  | var x =>
    simp only [valueToString, Spec.text, formatLong_zero]
    generalize cfg.getvar st.env x = g
    obtain ⟨g, env⟩ := g
    cases g <;> rfl
  | _ => rfl

theorem doAssignment_eq (x : List Char) (v ret : Value D) (st : St E) :
    doAssignment cfg x v ret st = Spec.store cfg x v ret st := by
  simp only [doAssignment, Spec.store, valueToString_eq]
  cases Spec.text cfg v st with
  | mk s st =>
    cases s with
    | none => rfl
    | some s =>
      rfl

theorem store_invalid (x : List Char) (ret : Value D) (st : St E) :
    Spec.store cfg x .invalid ret st = Spec.bad st := rfl

theorem incDec_eq (inc pre : Bool) (v : Value D) (st : St E) :
    incDec cfg inc pre v st = Spec.incDecValue cfg pre inc v st := by
  simp only [incDec, Spec.incDecValue]
  cases cfg.posix with
  | true => rfl
  | false =>
    simp only [Bool.false_eq_true, if_false]
    cases v with
    | var x =>
      simp only [coerceNumber_eq]
      cases hn : Spec.number cfg (.var x) st with
      | mk old st =>
        simp only
        cases old with
        | invalid => rfl
        | var y => exact (number_not_var cfg hn).elim
        | dbl d => simp only [doIncrementOrDecrement, Spec.step, doAssignment_eq]
        | long n =>
          simp only [doIncrementOrDecrement, Spec.step]
          have h : longIncDec inc n = some (Spec.exact (if inc then n.val + 1 else n.val - 1)) := by
            cases inc
            · exact (C08_unary n).2.2.1
            · exact (C08_unary n).2.1
          rw [h]
          cases Spec.exact (if inc then n.val + 1 else n.val - 1) <;>
            simp [Spec.outcome, Spec.bad, doAssignment_eq, St.fail]
    | _ => rfl

theorem exact_complement (n : Long) : longComplement n = some ⟨-n.val - 1, by
    have h1 := n.lo; have h2 := n.hi; simp only [longMin, longMax] at *; omega, by
    have h1 := n.lo; have h2 := n.hi; simp only [longMin, longMax] at *; omega⟩ := by
  obtain ⟨r, h1, h2⟩ := (C08_unary n).2.2.2
  rw [h1]; congr 1; exact Long.ext h2

theorem parseAsNumber_eq (s : List Char) (st : St E) :
    (parseAsNumber cfg s st : Value D × St E) = (match Spec.literal cfg s with
      | some v => (v, st)
      | none => Spec.bad st) := by
  simp only [parseAsNumber, Spec.literal]
  cases xwcstol cfg s with
  | some n => rfl
  | none =>
    cases cfg.posix with
    | true => rfl
    | false =>
      simp only [Bool.not_false, if_true, Bool.false_eq_true, if_false]
      cases cfg.strtodC s <;> rfl

end

end Yash.Arith
