import Verif.Arith.Model
import Verif.Arith.LongSpec
/-!
# Specification of arithmetic expansion

Expressions, the grammar that assigns an expression to a token string, and the value of an
expression.  Nothing here mentions the parser.
-/
set_option autoImplicit false

namespace Yash.Arith.Spec

/-- Abstract syntax. -/
inductive Expr where
  | lit (s : List Char)
  | var (name : List Char)
  | pos (e : Expr)
  | neg (e : Expr)
  | compl (e : Expr)
  | not (e : Expr)
  /-- `++x` (true) and `--x` (false) -/
  | pre (inc : Bool) (e : Expr)
  /-- `x++` and `x--` -/
  | post (inc : Bool) (e : Expr)
  | arith (op : Op1) (a b : Expr)
  | bits (op : Op2) (a b : Expr)
  | compare (op : Cmp) (a b : Expr)
  | and (a b : Expr)
  | or (a b : Expr)
  | cond (c a b : Expr)
  /-- `x = e` -/
  | assign (x e : Expr)
  /-- `x += e` etc. -/
  | assignArith (op : Op1) (x e : Expr)
  | assignBits (op : Op2) (x e : Expr)

/-! ## Grammar -/

/-- The nonterminals of the grammar, as in the C language. -/
inductive NT where
  | assignment | conditional | logicalOr | logicalAnd
  | inclusiveOr | exclusiveOr | and | equality | relational | shift | additive | multiplicative
  | prefix | postfix | primary
  deriving DecidableEq

/-- The left associative binary operators: `binary lhs op rhs f` is the production
`lhs := lhs op rhs` whose tree is `f`. -/
inductive Binary : NT → Tok → NT → (Expr → Expr → Expr) → Prop
  | or : Binary .logicalOr .pipepipe .logicalAnd .or
  | and : Binary .logicalAnd .ampamp .inclusiveOr .and
  | bor : Binary .inclusiveOr (.calc (.op2 .bor)) .exclusiveOr (.bits .bor)
  | bxor : Binary .exclusiveOr (.calc (.op2 .bxor)) .and (.bits .bxor)
  | band : Binary .and (.calc (.op2 .band)) .equality (.bits .band)
  | eq : Binary .equality (.cmp .eq) .relational (.compare .eq)
  | ne : Binary .equality (.cmp .ne) .relational (.compare .ne)
  | lt : Binary .relational (.cmp .lt) .shift (.compare .lt)
  | gt : Binary .relational (.cmp .gt) .shift (.compare .gt)
  | le : Binary .relational (.cmp .le) .shift (.compare .le)
  | ge : Binary .relational (.cmp .ge) .shift (.compare .ge)
  | shl : Binary .shift (.calc (.op2 .shl)) .additive (.bits .shl)
  | shr : Binary .shift (.calc (.op2 .shr)) .additive (.bits .shr)
  | add : Binary .additive (.calc (.op1 .add)) .multiplicative (.arith .add)
  | sub : Binary .additive (.calc (.op1 .sub)) .multiplicative (.arith .sub)
  | mul : Binary .multiplicative (.calc (.op1 .mul)) .prefix (.arith .mul)
  | div : Binary .multiplicative (.calc (.op1 .div)) .prefix (.arith .div)
  | mod : Binary .multiplicative (.calc (.op1 .mod)) .prefix (.arith .mod)

/-- The productions `lhs := rhs`. -/
inductive Chain : NT → NT → Prop
  | assignment : Chain .assignment .conditional
  | conditional : Chain .conditional .logicalOr
  | logicalOr : Chain .logicalOr .logicalAnd
  | logicalAnd : Chain .logicalAnd .inclusiveOr
  | inclusiveOr : Chain .inclusiveOr .exclusiveOr
  | exclusiveOr : Chain .exclusiveOr .and
  | and : Chain .and .equality
  | equality : Chain .equality .relational
  | relational : Chain .relational .shift
  | shift : Chain .shift .additive
  | additive : Chain .additive .multiplicative
  | multiplicative : Chain .multiplicative .prefix
  | prefix : Chain .prefix .postfix
  | postfix : Chain .postfix .primary

/-- The prefix operators. -/
inductive Prefix : Tok → (Expr → Expr) → Prop
  | pos : Prefix (.calc (.op1 .add)) .pos
  | neg : Prefix (.calc (.op1 .sub)) .neg
  | compl : Prefix .tilde .compl
  | not : Prefix .excl .not
  | inc : Prefix .plusplus (.pre true)
  | dec : Prefix .minusminus (.pre false)

/-- The assignment operators. -/
inductive AssignOp : Tok → (Expr → Expr → Expr) → Prop
  | eq : AssignOp (.assign none) .assign
  | arith (op : Op1) : AssignOp (.assign (some (.op1 op))) (.assignArith op)
  | bits (op : Op2) : AssignOp (.assign (some (.op2 op))) (.assignBits op)

/-- `Derives nt ts e`: the grammar derives the token string `ts` from `nt`, with tree `e`. -/
inductive Derives : NT → List Tok → Expr → Prop
  | num (s : List Char) : Derives .primary [.num s] (.lit s)
  | ident (s : List Char) : Derives .primary [.ident s] (.var s)
  | paren {u : List Tok} {e : Expr} : Derives .assignment u e →
      Derives .primary ([.lparen] ++ u ++ [.rparen]) e
  | inc {u : List Tok} {e : Expr} : Derives .postfix u e →
      Derives .postfix (u ++ [.plusplus]) (.post true e)
  | dec {u : List Tok} {e : Expr} : Derives .postfix u e →
      Derives .postfix (u ++ [.minusminus]) (.post false e)
  | pre {t : Tok} {f : Expr → Expr} {u : List Tok} {e : Expr} : Prefix t f →
      Derives .prefix u e → Derives .prefix ([t] ++ u) (f e)
  | binary {n m : NT} {t : Tok} {f : Expr → Expr → Expr} {u v : List Tok} {a b : Expr} :
      Binary n t m f → Derives n u a → Derives m v b → Derives n (u ++ [t] ++ v) (f a b)
  | cond {u v w : List Tok} {c a b : Expr} :
      Derives .logicalOr u c → Derives .assignment v a → Derives .conditional w b →
      Derives .conditional (u ++ [.question] ++ v ++ [.colon] ++ w) (.cond c a b)
  | assign {t : Tok} {f : Expr → Expr → Expr} {u v : List Tok} {x e : Expr} : AssignOp t f →
      Derives .conditional u x → Derives .assignment v e →
      Derives .assignment (u ++ [t] ++ v) (f x e)
  | chain {n m : NT} {u : List Tok} {e : Expr} : Chain n m → Derives m u e → Derives n u e

/-! ## Evaluation -/

section
variable {D E : Type} (cfg : Cfg D E)

/-- A literal: an integer constant, or (unless in POSIX mode) a floating point constant. -/
def literal (s : List Char) : Option (Value D) :=
  match xwcstol cfg s with
  | some n => some (.long n)
  | none => if cfg.posix then none else (cfg.strtodC s).map .dbl

/-- Expressions that are not evaluated are still checked: the literals must be numbers, and `++`
and `--` are not available in POSIX mode. -/
def wellFormed : Expr → Bool
  | .lit s => (literal cfg s).isSome
  | .var _ => true
  | .pos e | .neg e | .compl e | .not e => wellFormed e
  | .pre _ e | .post _ e => wellFormed e && !cfg.posix
  | .arith _ a b | .bits _ a b | .compare _ a b | .and a b | .or a b | .assign a b
  | .assignArith _ a b | .assignBits _ a b => wellFormed a && wellFormed b
  | .cond c a b => wellFormed c && wellFormed a && wellFormed b

/-- An expression that is not evaluated: nothing happens, except that it is checked. -/
def skip (e : Expr) (st : St E) : St E :=
  { st with err := st.err || !wellFormed cfg e }

/-- An error: no value, and the error is remembered. -/
def bad (st : St E) : Value D × St E := (.invalid, { st with err := true })

/-- The number that a value denotes when it is used as an operand.  A variable is read at this
moment: unset (if allowed) and empty count as 0. -/
def number (v : Value D) (st : St E) : Value D × St E :=
  match v with
  | .var x =>
    let g := cfg.getvar st.env x
    let st' := { st with env := g.2 }
    match g.1 with
    | none => if cfg.unset then (.long ⟨0, by decide, by decide⟩, st') else bad st'
    | some text =>
      if text = [] then (.long ⟨0, by decide, by decide⟩, st')
      else match xwcstol cfg text with
        | some n => (.long n, st')
        | none =>
          match (if cfg.posix then none else cfg.strtod text) with
          | some d => (.dbl d, st')
          | none => bad st'
  | v => (v, st)

/-- The integer that a value denotes.  Converting a floating point number that is out of range is
undefined behaviour. -/
def integer (v : Value D) (st : St E) : Value D × St E :=
  match number cfg v st with
  | (.dbl d, st) =>
    match cfg.dToLong d with
    | some n => (.long n, st)
    | none => (.invalid, { st with ub := true })
  | r => r

/-- Whether a number is nonzero. -/
def nonzero (v : Value D) : Option Bool :=
  match v with
  | .long n => some (decide (n.val ≠ 0))
  | .dbl d => some (cfg.dTruth d)
  | .invalid | .var _ => none

def ofBool (b : Bool) : Value D := .long (if b then ⟨1, by decide, by decide⟩ else ⟨0, by decide, by decide⟩)

/-- The effect of an integer operation. -/
def outcome (o : Outcome) (st : St E) : Value D × St E :=
  match o with
  | .ok n => (.long n, st)
  | _ => bad st

/-- A binary operation on numbers: on integers if both are integers, otherwise on floating point
numbers. -/
def mixed (onLong : Long → Long → St E → Value D × St E) (onDouble : D → D → St E → Value D × St E)
    (a b : Value D) (st : St E) : Value D × St E :=
  match number cfg a st with
  | (a, st) =>
    match number cfg b st with
    | (b, st) =>
      match a, b with
      | .long a, .long b => onLong a b st
      | .long a, .dbl b => onDouble (cfg.dOfLong a) b st
      | .dbl a, .long b => onDouble a (cfg.dOfLong b) st
      | .dbl a, .dbl b => onDouble a b st
      | _, _ => (.invalid, st)

/-- `+ - * / %` -/
def arithValue (op : Op1) : Value D → Value D → St E → Value D × St E :=
  mixed cfg (fun a b st => outcome (arith op a.val b.val) st)
    (fun a b st => match cfg.dCalc op a b with
      | some d => (.dbl d, st)
      | none => bad st)

open Classical in
/-- `< <= > >= == !=` -/
noncomputable def compareValue (op : Cmp) : Value D → Value D → St E → Value D × St E :=
  mixed cfg (fun a b st => (ofBool (decide (Spec.compare op a.val b.val)), st))
    (fun a b st => (ofBool (cfg.dCmp op a b), st))

/-- `<< >> & ^ |` -/
def bitsValue (op : Op2) (a b : Value D) (st : St E) : Value D × St E :=
  match integer cfg a st with
  | (a, st) =>
    match integer cfg b st with
    | (b, st) =>
      match a, b with
      | .long a, .long b => outcome (bits op a.val b.val) st
      | _, _ => (.invalid, st)

/-- The text that a value is stored or printed as.  A variable is copied as it is. -/
def text (v : Value D) (st : St E) : Option (List Char) × St E :=
  match v with
  | .invalid => (none, st)
  | .long n => (some (formatLong n), st)
  | .dbl d => (some (cfg.dPrint d), st)
  | .var x =>
    let g := cfg.getvar st.env x
    let st' := { st with env := g.2 }
    match g.1 with
    | some s => (some s, st')
    | none => if cfg.unset then (some ['0'], st') else (none, st')

/-- Stores a value in the variable `x`; the value of the expression is `ret`. -/
def store (x : List Char) (v ret : Value D) (st : St E) : Value D × St E :=
  match text cfg v st with
  | (none, st) => bad st
  | (some s, st) =>
    let r := cfg.setvar st.env x s
    if r.1 then (ret, { st with env := r.2 }) else bad { st with env := r.2 }

/-- `n + 1` or `n - 1` -/
def step (inc : Bool) (v : Value D) (st : St E) : Value D × St E :=
  match v with
  | .long n => outcome (exact (if inc then n.val + 1 else n.val - 1)) st
  | .dbl d => (.dbl (if inc then cfg.dInc d else cfg.dDec d), st)
  | v => (v, st)

/-- `++` and `--`: the operand must be a variable; `pre` selects whether the value is the new or
the old one. -/
def incDecValue (pre inc : Bool) (v : Value D) (st : St E) : Value D × St E :=
  if cfg.posix then bad st
  else match v with
    | .var x =>
      match number cfg (.var x) st with
      | (old, st) =>
        match step cfg inc old st with
        | (.invalid, st) => bad st
        | (new, st) => store cfg x new (if pre then new else old) st
    | .invalid => (.invalid, st)
    | .long _ | .dbl _ => bad st

/-- Assignment to the variable that `x` denotes. -/
def assignTo (x : Value D) (f : Value D → St E → Value D × St E) (st : St E) :
    Value D × St E :=
  match x with
  | .var name =>
    match f (.var name) st with
    | (v, st) => store cfg name v v st
  | .invalid => (.invalid, st)
  | .long _ | .dbl _ => bad st

/-- The value of an expression and the state after evaluating it.  Operands are evaluated from
left to right.  An error does not stop the evaluation, but the value that depends on it is
invalid. -/
noncomputable def eval : Expr → St E → Value D × St E
  | .lit s, st =>
    match literal cfg s with
    | some v => (v, st)
    | none => bad st
  | .var x, st => (.var x, st)
  | .pos e, st => match eval e st with | (v, st) => number cfg v st
  | .neg e, st =>
    match eval e st with
    | (v, st) =>
      match number cfg v st with
      | (.long n, st) => outcome (exact (-n.val)) st
      | (.dbl d, st) => (.dbl (cfg.dNeg d), st)
      | r => r
  | .compl e, st =>
    match eval e st with
    | (v, st) =>
      match integer cfg v st with
      | (.long n, st) => outcome (exact (-n.val - 1)) st
      | r => r
  | .not e, st =>
    match eval e st with
    | (v, st) =>
      match number cfg v st with
      | (v, st) =>
        match nonzero cfg v with
        | some b => (ofBool (!b), st)
        | none => (.invalid, st)
  | .pre inc e, st => match eval e st with | (v, st) => incDecValue cfg true inc v st
  | .post inc e, st => match eval e st with | (v, st) => incDecValue cfg false inc v st
  | .arith op a b, st =>
    match eval a st with
    | (x, st) => match eval b st with | (y, st) => arithValue cfg op x y st
  | .bits op a b, st =>
    match eval a st with
    | (x, st) => match eval b st with | (y, st) => bitsValue cfg op x y st
  | .compare op a b, st =>
    match eval a st with
    | (x, st) => match eval b st with | (y, st) => compareValue cfg op x y st
  | .and a b, st =>
    match eval a st with
    | (x, st) =>
      match number cfg x st with
      | (x, st) =>
        match nonzero cfg x with
        | none => (.invalid, skip cfg b st)
        | some false => (ofBool false, skip cfg b st)
        | some true =>
          match eval b st with
          | (y, st) =>
            match number cfg y st with
            | (y, st) =>
              match nonzero cfg y with
              | none => (.invalid, st)
              | some b => (ofBool b, st)
  | .or a b, st =>
    match eval a st with
    | (x, st) =>
      match number cfg x st with
      | (x, st) =>
        match nonzero cfg x with
        | none => (.invalid, skip cfg b st)
        | some true => (ofBool true, skip cfg b st)
        | some false =>
          match eval b st with
          | (y, st) =>
            match number cfg y st with
            | (y, st) =>
              match nonzero cfg y with
              | none => (.invalid, st)
              | some b => (ofBool b, st)
  | .cond c a b, st =>
    match eval c st with
    | (x, st) =>
      match number cfg x st with
      | (x, st) =>
        match nonzero cfg x with
        | none => (.invalid, skip cfg b (skip cfg a st))
        | some true => match eval a st with | (v, st) => (v, skip cfg b st)
        | some false => eval b (skip cfg a st)
  | .assign x e, st =>
    match eval x st with
    | (l, st) => match eval e st with | (r, st) => assignTo cfg l (fun _ st => (r, st)) st
  | .assignArith op x e, st =>
    match eval x st with
    | (l, st) => match eval e st with | (r, st) => assignTo cfg l (fun l st => arithValue cfg op l r st) st
  | .assignBits op x e, st =>
    match eval x st with
    | (l, st) => match eval e st with | (r, st) => assignTo cfg l (fun l st => bitsValue cfg op l r st) st

/-- The value of a whole arithmetic expansion: the text of the result unless there was an error. -/
noncomputable def value (e : Expr) (env : E) : Option (List Char) × St E :=
  match eval cfg e { env := env, err := false, ub := false } with
  | (v, st) =>
    match (if cfg.posix then number cfg v st else (v, st)) with
    | (v, st) => if st.err then (none, st) else text cfg v st

end

end Yash.Arith.Spec
