import Verif.Arith.Inv
import Verif.Arith.Fuel
import Verif.Arith.NumProps
import Verif.Arith.LexProps
/-!
# Properties of arithmetic expansion (C08, C09, C10)
-/
set_option autoImplicit false

namespace Yash.Arith

open Spec (Expr NT Derives)

section
variable {D E : Type} (cfg : Cfg D E)

/-- The state in which the evaluation of a string begins. -/
def begin (env : E) : St E := { env := env, err := false, ub := false }

theorem reach_valid {toks : List Tok} {e : Expr} {nt : NT} (h : Derives nt toks e) (env : E) :
    reach toks { toks := [], parseonly := false, st := { env := env, err := false, ub := false } }
      = ⟨toks, false, begin env⟩ := by
  have := (derives_ok h).2 []
  rw [List.append_nil] at this
  simp [reach, this, begin]

/-- `evaluate` computes the value of the expression that the grammar assigns to the string. -/
theorem evaluate_derives (coerce : Bool) (exp : List Char) (env : E) (e : Expr)
    (h : Derives .assignment (tokenize cfg exp) e) :
    evaluate cfg coerce exp env
      = (let r := Spec.eval cfg e (begin env)
         let r := if coerce then Spec.number cfg r.1 r.2 else r
         (r.1, ⟨[], false, r.2⟩)) := by
  have hf := finished_of_reached cfg (reached_of_derives cfg h) (fuelFor (tokenize cfg exp)) [] false
    (begin env) (by simp only [fuelFor, rank]; omega) (stop_nil _)
  simp only [parseNT, List.append_nil] at hf
  rw [evaluate]
  dsimp only
  rw [reach_valid h, hf]
  dsimp only [run]
  cases coerce with
  | false => rfl
  | true => simp only [if_true, Bool.false_eq_true, if_false, coerceNumber_eq]

/-- A string without expression is an error. -/
theorem evaluate_error (coerce : Bool) (exp : List Char) (env : E)
    (h : ¬ ∃ e, Derives .assignment (tokenize cfg exp) e) :
    (evaluate cfg coerce exp env).2.st.err = true ∨ (evaluate cfg coerce exp env).2.toks ≠ [] := by
  rw [evaluate]
  dsimp only
  generalize hi : reach (tokenize cfg exp) { toks := [], parseonly := false, st := { env := env, err := false, ub := false } } = i
  have hit : i.toks = tokenize cfg exp := by rw [← hi]; rfl
  have so := (sound cfg (fuelFor (tokenize cfg exp))).assignment i
  generalize parseAssignment cfg (fuelFor (tokenize cfg exp)) i = r at *
  obtain ⟨v, j⟩ := r
  have main : j.st.err = true ∨ j.toks ≠ [] := by
    cases he : j.st.err with
    | true => exact .inl rfl
    | false =>
      right
      intro ht
      obtain ⟨u, e, hu, hd⟩ := so.derives he
      rw [ht, List.append_nil, hit] at hu
      exact h ⟨e, by rw [hu]; exact hd⟩
  cases coerce with
  | false => exact main
  | true =>
    simp only [if_true]
    rcases main with h | h
    · exact .inl (coerceNumber_err cfg h)
    · exact .inr h

/-- **C09**: arithmetic expansion evaluates every string that the grammar of C derives as the tree
of the derivation says (operator precedence, associativity and evaluation order), and reports an
error for every other string. -/
theorem C09_expansion (exp : List Char) (env : E) :
    (∀ e, Derives .assignment (tokenize cfg exp) e →
      evaluateArithmetic cfg exp env = Spec.value cfg e env)
    ∧ ((¬ ∃ e, Derives .assignment (tokenize cfg exp) e) →
      (evaluateArithmetic cfg exp env).1 = none) := by
  constructor
  · intro e h
    rw [evaluateArithmetic, evaluate_derives cfg _ _ _ e h, Spec.value]
    dsimp only [begin]
    generalize (if cfg.posix = true then
        Spec.number cfg (Spec.eval cfg e { env := env, err := false, ub := false }).1
          (Spec.eval cfg e { env := env, err := false, ub := false }).2
      else Spec.eval cfg e { env := env, err := false, ub := false }) = r
    split
    · rfl
    · rw [if_pos rfl]
      obtain ⟨v, st⟩ := r
      exact valueToString_eq cfg v st
  · intro h
    have := evaluate_error cfg cfg.posix exp env h
    rw [evaluateArithmetic]
    dsimp only
    rcases this with h | h
    · rw [if_pos h]
    · rw [if_neg h]
      split <;> rfl

/-- **C09** for array indices: the value must be an integer, and the smallest integer counts as
its successor. -/
theorem C09_index (exp : List Char) (env : E) :
    (∀ e, Derives .assignment (tokenize cfg exp) e →
      evaluateIndex cfg exp env =
        (let r := Spec.eval cfg e { env := env, err := false, ub := false }
         let r := Spec.number cfg r.1 r.2
         ((if r.2.err then none
           else match r.1 with
             | .long n => some (max n.val (-(2 ^ 63 - 1)))
             | _ => none), r.2)))
    ∧ ((¬ ∃ e, Derives .assignment (tokenize cfg exp) e) →
      (evaluateIndex cfg exp env).1 = none) := by
  constructor
  · intro e h
    rw [evaluateIndex, evaluate_derives cfg _ _ _ e h]
    dsimp only [begin]
    simp only [if_true]
    generalize Spec.number cfg (Spec.eval cfg e { env := env, err := false, ub := false }).1
          (Spec.eval cfg e { env := env, err := false, ub := false }).2 = r
    obtain ⟨v, st⟩ := r
    dsimp only
    split
    · rfl
    · cases v with
      | long n =>
        simp only [Prod.mk.injEq, and_true, Option.some.injEq]
        have hm : longMax = 9223372036854775807 := rfl
        by_cases hn : n.val < -longMax
        · rw [if_pos hn]; omega
        · rw [if_neg hn]; omega
      | _ => rfl
  · intro h
    have := evaluate_error cfg true exp env h
    rw [evaluateIndex]
    dsimp only
    rcases this with h | h
    · rw [if_pos h]
    · rw [if_neg h]
      split <;> rfl

theorem skip_wellFormed {e : Expr} (h : Spec.wellFormed cfg e = true) (st : St E) :
    Spec.skip cfg e st = st := by
  simp [Spec.skip, h]

/-- **C10** (`||`): if the left operand is not zero, the result is 1 and the state is the one after
the evaluation of the left operand alone: nothing in the right operand is evaluated.  (The right
operand must be a valid expression with valid constants.) -/
theorem C10_or (exp exp0 : List Char) (v : List Tok) (a b : Expr) (env : E)
    (ht : tokenize cfg exp = tokenize cfg exp0 ++ [.pipepipe] ++ v)
    (h0 : Derives .logicalOr (tokenize cfg exp0) a) (hb : Derives .logicalAnd v b)
    (hw : Spec.wellFormed cfg b = true)
    (he : (evaluate cfg true exp0 env).2.st.err = false)
    (hn : Spec.nonzero cfg (evaluate cfg true exp0 env).1 = some true) :
    evaluateArithmetic cfg exp env = (some ['1'], (evaluate cfg true exp0 env).2.st) := by
  have hd : Derives .assignment (tokenize cfg exp) (.or a b) := by
    rw [ht]
    exact .chain .assignment (.chain .conditional (.binary .or h0 hb))
  have hd0 : Derives .assignment (tokenize cfg exp0) a :=
    .chain .assignment (.chain .conditional h0)
  rw [evaluate_derives cfg _ _ _ a hd0] at he hn ⊢
  rw [(C09_expansion cfg exp env).1 _ hd, Spec.value, Spec.eval]
  dsimp only [begin] at *
  simp only [if_true] at *
  generalize Spec.number cfg (Spec.eval cfg a { env := env, err := false, ub := false }).1
          (Spec.eval cfg a { env := env, err := false, ub := false }).2 = r at *
  obtain ⟨x, st⟩ := r
  dsimp only at he hn ⊢
  rw [hn]
  dsimp only
  rw [skip_wellFormed cfg hw]
  simp only [Spec.ofBool, if_true, Spec.number, ite_self, he, Bool.false_eq_true, if_false,
    Spec.text]
  rfl

/-- **C10** (`&&`): if the left operand is zero, the result is 0 and nothing in the right operand
is evaluated. -/
theorem C10_and (exp exp0 : List Char) (v : List Tok) (a b : Expr) (env : E)
    (ht : tokenize cfg exp = tokenize cfg exp0 ++ [.ampamp] ++ v)
    (h0 : Derives .logicalAnd (tokenize cfg exp0) a) (hb : Derives .inclusiveOr v b)
    (hw : Spec.wellFormed cfg b = true)
    (he : (evaluate cfg true exp0 env).2.st.err = false)
    (hn : Spec.nonzero cfg (evaluate cfg true exp0 env).1 = some false) :
    evaluateArithmetic cfg exp env = (some ['0'], (evaluate cfg true exp0 env).2.st) := by
  have hd : Derives .assignment (tokenize cfg exp) (.and a b) := by
    rw [ht]
    exact .chain .assignment (.chain .conditional (.chain .logicalOr (.binary .and h0 hb)))
  have hd0 : Derives .assignment (tokenize cfg exp0) a :=
    .chain .assignment (.chain .conditional (.chain .logicalOr h0))
  rw [evaluate_derives cfg _ _ _ a hd0] at he hn ⊢
  rw [(C09_expansion cfg exp env).1 _ hd, Spec.value, Spec.eval]
  dsimp only [begin] at *
  simp only [if_true] at *
  generalize Spec.number cfg (Spec.eval cfg a { env := env, err := false, ub := false }).1
          (Spec.eval cfg a { env := env, err := false, ub := false }).2 = r at *
  obtain ⟨x, st⟩ := r
  dsimp only at he hn ⊢
  rw [hn]
  dsimp only
  rw [skip_wellFormed cfg hw]
  simp only [Spec.ofBool, Bool.false_eq_true, if_false, Spec.number, ite_self, he, Spec.text]
  rfl

/-- **C10** (`?:`): the result and the final state are those of the selected operand alone,
evaluated after the condition. -/
theorem C10_conditional (exp exp0 exp1 exp2 : List Char) (c a b : Expr) (env : E) (z : Bool)
    (ht : tokenize cfg exp
      = tokenize cfg exp0 ++ [.question] ++ tokenize cfg exp1 ++ [.colon] ++ tokenize cfg exp2)
    (h0 : Derives .logicalOr (tokenize cfg exp0) c) (h1 : Derives .assignment (tokenize cfg exp1) a)
    (h2 : Derives .conditional (tokenize cfg exp2) b)
    (hw1 : Spec.wellFormed cfg a = true) (hw2 : Spec.wellFormed cfg b = true)
    (he : (evaluate cfg true exp0 env).2.st.err = false)
    (hub : (evaluate cfg true exp0 env).2.st.ub = false)
    (hn : Spec.nonzero cfg (evaluate cfg true exp0 env).1 = some z) :
    evaluateArithmetic cfg exp env
      = evaluateArithmetic cfg (if z then exp1 else exp2) (evaluate cfg true exp0 env).2.st.env := by
  have hd : Derives .assignment (tokenize cfg exp) (.cond c a b) := by
    rw [ht]
    exact .chain .assignment (.cond h0 h1 h2)
  have hd0 : Derives .assignment (tokenize cfg exp0) c :=
    .chain .assignment (.chain .conditional h0)
  have hd2 : Derives .assignment (tokenize cfg exp2) b := .chain .assignment h2
  have hsel : evaluateArithmetic cfg (if z then exp1 else exp2) (evaluate cfg true exp0 env).2.st.env
      = Spec.value cfg (if z then a else b) (evaluate cfg true exp0 env).2.st.env := by
    cases z
    · exact (C09_expansion cfg exp2 _).1 _ hd2
    · exact (C09_expansion cfg exp1 _).1 _ h1
  rw [hsel, (C09_expansion cfg exp env).1 _ hd]
  rw [evaluate_derives cfg _ _ _ c hd0] at he hn hub ⊢
  rw [Spec.value, Spec.eval, Spec.value]
  dsimp only [begin] at *
  simp only [if_true] at *
  generalize Spec.number cfg (Spec.eval cfg c { env := env, err := false, ub := false }).1
          (Spec.eval cfg c { env := env, err := false, ub := false }).2 = r at *
  obtain ⟨x, st⟩ := r
  obtain ⟨en, er, ub⟩ := st
  dsimp only at he hn hub ⊢
  subst he hub
  rw [hn]
  cases z with
  | false => simp only [Bool.false_eq_true, if_false, skip_wellFormed cfg hw1]
  | true => simp only [if_true, skip_wellFormed cfg hw2]

/-- What the parser does to the state, for any string. -/
theorem evaluate_preserved {P : St E → Prop} (exp : List Char) (env : E)
    (p : Preserved cfg (tokenize cfg exp) P) (h : P (begin env)) (coerce : Bool) :
    P (evaluate cfg coerce exp env).2.st := by
  rw [evaluate]
  dsimp only
  have h0 : P (reach (tokenize cfg exp) { toks := [], parseonly := false, st := { env := env, err := false, ub := false } }).st := by
    simp only [reach]
    split
    · exact p.fail _ h
    · exact h
  have := (invariant p (fuelFor (tokenize cfg exp))).assignment _ (List.suffix_refl _) h0
  cases coerce with
  | false => exact this
  | true => simp only [if_true]; exact p.coerceNumber _ this

theorem expansion_preserved {P : St E → Prop} (exp : List Char) (env : E)
    (p : Preserved cfg (tokenize cfg exp) P) (h : P (begin env)) :
    P (evaluateArithmetic cfg exp env).2 := by
  have := evaluate_preserved cfg exp env p h cfg.posix
  rw [evaluateArithmetic]
  dsimp only
  split
  · exact this
  · split
    · exact p.toText _ this
    · exact this

/-- **C08** (no undefined behaviour): whatever the string and the variables, evaluating it executes
no undefined integer operation, provided that no floating point number that has to be converted to
an integer is out of range. -/
theorem C08_defined (hd : ∀ d, cfg.dToLong d ≠ none) (exp : List Char) (env : E) :
    (evaluateArithmetic cfg exp env).2.ub = false := by
  refine expansion_preserved (P := fun st => st.ub = false) cfg exp env ?_ rfl
  exact ⟨fun _ h => h, fun _ ⟨d, h⟩ _ => absurd h (hd d), fun _ _ h => h, fun _ _ _ _ h => h⟩

/-- **C10** (pure expressions): an expression without assignment, `++` and `--` does not assign any
variable: whatever holds before and is preserved by reading variables holds afterwards. -/
theorem C10_pure (exp : List Char) (env : E)
    (ht : ∀ t ∈ tokenize cfg exp, t ≠ .plusplus ∧ t ≠ .minusminus ∧ ∀ o, t ≠ .assign o)
    (P : E → Prop) (hP : ∀ env x, P env → P (cfg.getvar env x).2) (h : P env) :
    P (evaluateArithmetic cfg exp env).2.env := by
  refine expansion_preserved (P := fun st => P st.env) cfg exp env ?_ h
  refine ⟨fun _ h => h, fun _ _ h => h, fun _ _ h => hP _ _ h, ?_⟩
  rintro _ _ _ ⟨t, hm, ha⟩ _
  have := ht t hm
  cases t with
  | plusplus => exact absurd rfl this.1
  | minusminus => exact absurd rfl this.2.1
  | assign o => exact absurd rfl (this.2.2 o)
  | _ => cases ha

end

/-! ### Examples and counterexamples -/

/-- An environment for examples: ASCII, variables in a list, and the integers in the role of the
floating point numbers, with one floating point constant. -/
def exampleCfg : Cfg Int (List (List Char × List Char)) where
  posix := false
  unset := true
  isSpace := fun c => c == ' '
  isDigit := Char.isDigit
  isAlpha := Char.isAlpha
  isAlnum := Char.isAlphanum
  getvar := fun env x => (env.lookup x, env)
  setvar := fun env x s => (true, (x, s) :: env)
  strtodC := fun s => if s = "1e30".toList then some (10 ^ 30) else none
  strtod := fun _ => none
  dCalc := fun _ d e => some (d + e)
  dCmp := fun _ d e => d == e
  dNeg := fun d => -d
  dInc := fun d => d + 1
  dDec := fun d => d - 1
  dTruth := fun d => d != 0
  dOfLong := fun n => n.val
  dToLong := fun d => mk? d
  dPrint := fun _ => ['d']

/-- Undefined behaviour: the conversion of `1e30` to an integer is out of range.  (The C library's
`wcstod` and the arithmetic on doubles yield such numbers.) -/
theorem C08_conversion_undefined :
    (evaluateArithmetic exampleCfg "1e30&1".toList []).2.ub = true := by decide +kernel

theorem tokens_sum : tokenize exampleCfg "1+x * 3".toList
    = [.num ['1'], .calc (.op1 .add), .ident ['x'], .calc (.op1 .mul), .num ['3']] := by
  decide +kernel

/-- The grammar: multiplication binds tighter than addition. -/
example : Derives .assignment (tokenize exampleCfg "1+x * 3".toList)
    (.arith .add (.lit ['1']) (.arith .mul (.var ['x']) (.lit ['3']))) := by
  rw [tokens_sum]
  have p1 : Derives .additive [.num ['1']] (.lit ['1']) :=
    .chain .additive (.chain .multiplicative (.chain .prefix (.chain .postfix (.num _))))
  have p2 : Derives .multiplicative [.ident ['x']] (.var ['x']) :=
    .chain .multiplicative (.chain .prefix (.chain .postfix (.ident _)))
  have p3 : Derives .prefix [.num ['3']] (.lit ['3']) :=
    .chain .prefix (.chain .postfix (.num _))
  have := Derives.binary .add p1 (.binary .mul p2 p3)
  exact .chain .assignment (.chain .conditional (.chain .logicalOr (.chain .logicalAnd
    (.chain .inclusiveOr (.chain .exclusiveOr (.chain .and (.chain .equality (.chain .relational
    (.chain .shift this)))))))))

example : (evaluateArithmetic exampleCfg "1+x * 3".toList [(['x'], "0x10".toList)]).1
    = some "49".toList := by decide +kernel
example : (evaluateArithmetic exampleCfg "7-2-1".toList []).1 = some ['4'] := by decide +kernel
example : (evaluateArithmetic exampleCfg "x=y=2, ".toList []).1 = none := by decide +kernel
example : (evaluateArithmetic exampleCfg "1+".toList []).1 = none := by decide +kernel
example : (evaluateArithmetic exampleCfg "-9223372036854775807-1".toList []).1
    = some "-9223372036854775808".toList := by decide +kernel
example : (evaluateArithmetic exampleCfg "9223372036854775807+1".toList []).1 = none := by
  decide +kernel
/-- Nothing is evaluated on the right of a true operand of `||`, not even a division by zero. -/
example : (evaluateArithmetic exampleCfg "2||(x=5)/0".toList []).1 = some ['1']
    ∧ (evaluateArithmetic exampleCfg "2||(x=5)/0".toList []).2.env = [] := by decide +kernel
example : (evaluateArithmetic exampleCfg "0?x=1:(y=2)".toList []).2.env = [(['y'], ['2'])] := by
  decide +kernel
example : (evaluateIndex exampleCfg "x+1".toList []).1 = some 1 := by decide +kernel

/-- The example's character classes are as assumed by the theorems about the lexer. -/
theorem exampleCfg_sane : Spec.SaneClasses exampleCfg := by
  refine ⟨by decide, by decide, by decide, ?_, ?_, by decide⟩
  · intro c h
    simp only [exampleCfg, Char.isDigit, Char.isAlpha, Char.isUpper, Char.isLower] at *
    simp only [Bool.and_eq_true, decide_eq_true_eq, Bool.or_eq_false_iff, Bool.and_eq_false_iff,
      decide_eq_false_iff_not, beq_eq_false_iff_ne, ge_iff_le] at *
    obtain ⟨h1, h2⟩ := h
    simp only [UInt32.le_iff_toNat_le] at *
    refine ⟨⟨?_, ?_⟩, ?_⟩
    · simp at *; omega
    · simp at *; omega
    · rintro rfl; simp at h1
  · intro c h
    simp only [exampleCfg, Char.isAlpha, Char.isUpper, Char.isLower] at *
    simp only [beq_eq_false_iff_ne]
    rintro rfl
    revert h; decide

theorem exampleCfg_space : SaneSpace exampleCfg := by
  intro c h
  simp only [exampleCfg, beq_iff_eq] at h
  subst h
  refine ⟨by decide, by decide, fun d hd => ?_⟩
  rw [digit_base (by omega)] at hd
  exact absurd hd.1 (by rw [show digitValue ' ' = none from by decide]; simp)

example (n : Long) : xwcstol exampleCfg (formatLong n) = some n := C36_roundtrip exampleCfg_space n

example : nextToken exampleCfg " <<=x".toList = some (.assign (some (.op2 .shl)), ['x']) := by
  decide +kernel
example : tokenize exampleCfg "1e+5 + .5".toList
    = [.num "1e+5".toList, .calc (.op1 .add), .num ".5".toList] := by decide +kernel

/-- The integer operators, at the limits. -/
example : longCalculation1 .add ⟨2 ^ 63 - 1, by decide, by decide⟩ .one = some .overflow
    ∧ longCalculation1 .div ⟨-7, by decide, by decide⟩ ⟨2, by decide, by decide⟩
      = some (.ok ⟨-3, by decide, by decide⟩)
    ∧ longCalculation2 .shl .one ⟨63, by decide, by decide⟩ = some .overflow
    ∧ longCalculation2 .bxor ⟨-1, by decide, by decide⟩ ⟨5, by decide, by decide⟩
      = some (.ok ⟨-6, by decide, by decide⟩) := by
  refine ⟨?_, ?_, ?_, ?_⟩ <;> decide +kernel

end Yash.Arith
