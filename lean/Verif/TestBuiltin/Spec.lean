import Verif.TestBuiltin.Model
/-!
# Specification of `test`

The meaning of the primaries, the grammar of long expressions and the rules for few arguments,
written without the functions of the model (only `World` and `Word` are shared).
-/
set_option autoImplicit false

namespace Yash.TestBuiltin.Spec

open Yash.TestBuiltin (World Word FileStat)

/-- Decimal value of digits. -/
def decimal : Word → Nat
  | [] => 0
  | d :: ds => (d.toNat - 48) * 10 ^ ds.length + decimal ds

/-- `s` denotes the integer `n`: blanks, an optional sign, decimal digits; in the range of the
largest C integer type. -/
inductive IsInteger (W : World) : Word → Int → Prop
  | intro (blanks ds : Word) (sign : Word) (n : Int) :
      (∀ c ∈ blanks, W.isSpace c) →
      ds ≠ [] → (∀ c ∈ ds, c ∈ "0123456789".toList) →
      (sign = [] ∧ n = decimal ds ∨ sign = ['+'] ∧ n = decimal ds
        ∨ sign = ['-'] ∧ n = - (decimal ds : Int)) →
      -(2 ^ 63) ≤ n → n ≤ 2 ^ 63 - 1 →
      IsInteger W (blanks ++ sign ++ ds) n

/-- One file is newer than another if its time stamp is later, or if the other does not exist. -/
def Newer (a b : Option FileStat) : Prop :=
  match a, b with
  | some _, none => True
  | some s, some t => ¬ (s.dev = t.dev ∧ s.ino = t.ino) ∧
      (s.mtime > t.mtime ∨ s.mtime = t.mtime ∧ s.mtimeNsec > t.mtimeNsec)
  | none, _ => False

/-- Both exist and are the same file. -/
def SameFile (a b : Option FileStat) : Prop :=
  ∃ s t, a = some s ∧ b = some t ∧ s.dev = t.dev ∧ s.ino = t.ino

/-- Meaning of the unary operators: `Unary W op arg v` says that applying `op` to `arg` gives the
truth value `v` without error. -/
inductive Unary (W : World) (arg : Word) : String → Bool → Prop
  | nonempty : Unary W arg "-n" (arg ≠ [])
  | empty : Unary W arg "-z" (arg = [])
  | terminal (fd : Int) : IsInteger W arg fd → -(2 ^ 31) ≤ fd → fd < 2 ^ 31 →
      Unary W arg "-t" (W.isatty fd)
  | noTerminal : (∀ fd, IsInteger W arg fd → fd < -(2 ^ 31) ∨ 2 ^ 31 ≤ fd) →
      Unary W arg "-t" false
  | optionExists (name : Word) : arg = '?' :: name → Unary W arg "-o" (W.optionValid name)
  | optionOn : arg.head? ≠ some '?' → Unary W arg "-o" (W.optionEnabled arg)
  | file (op : String) (c : Char) :
      (op, c) ∈ [("-b", 'b'), ("-c", 'c'), ("-d", 'd'), ("-e", 'e'), ("-f", 'f'), ("-G", 'G'),
        ("-g", 'g'), ("-h", 'h'), ("-k", 'k'), ("-L", 'L'), ("-N", 'N'), ("-O", 'O'),
        ("-p", 'p'), ("-r", 'r'), ("-S", 'S'), ("-s", 's'), ("-u", 'u'), ("-w", 'w'),
        ("-x", 'x')] →
      W.convertible arg → Unary W arg op (W.file c arg)

/-- The unary operators. -/
def unaryOperators : List Word :=
  ["-b", "-c", "-d", "-e", "-f", "-G", "-g", "-h", "-k", "-L", "-N", "-n", "-O", "-o", "-p", "-r",
   "-S", "-s", "-t", "-u", "-w", "-x", "-z"].map String.toList

/-- Meaning of the binary operators on strings, integers, files and versions. The comparison of
versions is a parameter. -/
inductive Binary (W : World) (vers : Word → Word → Int) (l r : Word) : String → Bool → Prop
  | equal : Binary W vers l r "=" (l = r)
  | equal' : Binary W vers l r "==" (l = r)
  | notEqual : Binary W vers l r "!=" (l ≠ r)
  | collEqual : Binary W vers l r "===" (W.coll l r = 0)
  | collNotEqual : Binary W vers l r "!==" (W.coll l r ≠ 0)
  | collLess : Binary W vers l r "<" (W.coll l r < 0)
  | collLessEq : Binary W vers l r "<=" (W.coll l r ≤ 0)
  | collGreater : Binary W vers l r ">" (W.coll l r > 0)
  | collGreaterEq : Binary W vers l r ">=" (W.coll l r ≥ 0)
  | regex : Binary W vers l r "=~" (W.regex l r)
  | intEq (a b : Int) : IsInteger W l a → IsInteger W r b → Binary W vers l r "-eq" (a = b)
  | intNe (a b : Int) : IsInteger W l a → IsInteger W r b → Binary W vers l r "-ne" (a ≠ b)
  | intGt (a b : Int) : IsInteger W l a → IsInteger W r b → Binary W vers l r "-gt" (a > b)
  | intGe (a b : Int) : IsInteger W l a → IsInteger W r b → Binary W vers l r "-ge" (a ≥ b)
  | intLt (a b : Int) : IsInteger W l a → IsInteger W r b → Binary W vers l r "-lt" (a < b)
  | intLe (a b : Int) : IsInteger W l a → IsInteger W r b → Binary W vers l r "-le" (a ≤ b)
  | same (v : Bool) : W.convertible l → W.convertible r →
      (v = true ↔ SameFile (W.stat l) (W.stat r)) → Binary W vers l r "-ef" v
  | newer (v : Bool) : W.convertible l → W.convertible r →
      (v = true ↔ Newer (W.stat l) (W.stat r)) → Binary W vers l r "-nt" v
  | older (v : Bool) : W.convertible l → W.convertible r →
      (v = true ↔ Newer (W.stat r) (W.stat l)) → Binary W vers l r "-ot" v
  | versEq : Binary W vers l r "-veq" (vers l r = 0)
  | versNe : Binary W vers l r "-vne" (vers l r ≠ 0)
  | versGt : Binary W vers l r "-vgt" (vers l r > 0)
  | versGe : Binary W vers l r "-vge" (vers l r ≥ 0)
  | versLt : Binary W vers l r "-vlt" (vers l r < 0)
  | versLe : Binary W vers l r "-vle" (vers l r ≤ 0)

/-- The binary operators (`-a` and `-o` are not among them). -/
def binaryOperators : List Word :=
  ["=", "==", "!=", "===", "!==", "<", "<=", ">", ">=", "=~", "-eq", "-ne", "-gt", "-ge", "-lt",
   "-le", "-ef", "-nt", "-ot", "-veq", "-vne", "-vgt", "-vge", "-vlt", "-vle"].map String.toList

/-- Expressions. -/
inductive Expr
  | str (w : Word)
  | unary (op w : Word)
  | binary (l op r : Word)
  | not (e : Expr)
  | and (e f : Expr)
  | or (e f : Expr)

/-- Meaning of expressions; there is no value if any operand has an error. -/
inductive Holds (W : World) (vers : Word → Word → Int) : Expr → Bool → Prop
  | str (w : Word) : Holds W vers (.str w) (w ≠ [])
  | unary (op : String) (w : Word) (v : Bool) :
      Unary W w op v → Holds W vers (.unary op.toList w) v
  | binary (l r : Word) (op : String) (v : Bool) :
      Binary W vers l r op v → Holds W vers (.binary l op.toList r) v
  | not (e : Expr) (v : Bool) : Holds W vers e v → Holds W vers (.not e) (!v)
  | and (e f : Expr) (u v : Bool) :
      Holds W vers e u → Holds W vers f v → Holds W vers (.and e f) (u && v)
  | or (e f : Expr) (u v : Bool) :
      Holds W vers e u → Holds W vers f v → Holds W vers (.or e f) (u || v)

/-- A primary can end here: at the end of the arguments or before `)`, `-a` or `-o`. -/
def Ends (rest : List Word) : Prop :=
  rest = [] ∨ ∃ d ∈ [")", "-a", "-o"], rest.head? = some (String.toList d)

/-- The arguments begin with a binary expression. -/
def BinaryAt (ws : List Word) : Prop :=
  ∃ l op r rest, ws = l :: op :: r :: rest ∧ op ∈ binaryOperators ∧ Ends rest

/-- The arguments begin with a unary expression. -/
def UnaryAt (ws : List Word) : Prop :=
  ∃ op w rest, ws = op :: w :: rest ∧ op ∈ unaryOperators ∧ Ends rest

/-- A primary at the beginning of the arguments: binary before unary before a single string. -/
inductive Primary : List Word → Expr → List Word → Prop
  | binary (l op r : Word) (rest : List Word) : op ∈ binaryOperators → Ends rest →
      Primary (l :: op :: r :: rest) (.binary l op r) rest
  | unary (op w : Word) (rest : List Word) : ¬ BinaryAt (op :: w :: rest) →
      op ∈ unaryOperators → Ends rest → Primary (op :: w :: rest) (.unary op w) rest
  | str (w : Word) (rest : List Word) : ¬ BinaryAt (w :: rest) → ¬ UnaryAt (w :: rest) →
      Primary (w :: rest) (.str w) rest

mutual

/-- The grammar: `Or ws e rest` says that `ws` begins with the disjunction `e`, followed by
`rest`. -/
inductive Or : List Word → Expr → List Word → Prop
  | one (ws : List Word) (e : Expr) (rest : List Word) : And ws e rest → Or ws e rest
  | more (ws : List Word) (e : Expr) (mid : List Word) (f : Expr) (rest : List Word) :
      Or ws e ("-o".toList :: mid) → And mid f rest → Or ws (.or e f) rest

inductive And : List Word → Expr → List Word → Prop
  | one (ws : List Word) (e : Expr) (rest : List Word) : Term ws e rest → And ws e rest
  | more (ws : List Word) (e : Expr) (mid : List Word) (f : Expr) (rest : List Word) :
      And ws e ("-a".toList :: mid) → Term mid f rest → And ws (.and e f) rest

inductive Term : List Word → Expr → List Word → Prop
  | not (ws : List Word) (e : Expr) (rest : List Word) :
      Factor ws e rest → Term ("!".toList :: ws) (.not e) rest
  | plain (ws : List Word) (e : Expr) (rest : List Word) :
      ws.head? ≠ some "!".toList → Factor ws e rest → Term ws e rest

inductive Factor : List Word → Expr → List Word → Prop
  | paren (ws : List Word) (e : Expr) (rest : List Word) :
      Or ws e (")".toList :: rest) → Factor ("(".toList :: ws) e rest
  | primary (ws : List Word) (e : Expr) (rest : List Word) :
      ws.head? ≠ some "(".toList → Primary ws e rest → Factor ws e rest

end

/-- Operators accepted between two operands when there are exactly three arguments. -/
def binaryOperators3 : List Word := binaryOperators ++ ["-a".toList, "-o".toList]

/-- Three arguments with a binary operator in the middle. -/
inductive Triple (W : World) (vers : Word → Word → Int) : Word → Word → Word → Bool → Prop
  | binary (l r : Word) (op : String) (v : Bool) :
      Binary W vers l r op v → Triple W vers l op.toList r v
  | and (l r : Word) : Triple W vers l "-a".toList r (l ≠ [] ∧ r ≠ [])
  | or (l r : Word) : Triple W vers l "-o".toList r (l ≠ [] ∨ r ≠ [])

/-- What POSIX says about `test` with the given arguments: `Means W vers args v` if the arguments
have the truth value `v`. -/
inductive Means (W : World) (vers : Word → Word → Int) : List Word → Bool → Prop
  | none : Means W vers [] false
  | one (a : Word) : Means W vers [a] (a ≠ [])
  | twoNot (a : Word) : Means W vers ["!".toList, a] (a = [])
  | twoUnary (op : String) (a : Word) (v : Bool) : Unary W a op v → Means W vers [op.toList, a] v
  | threeBinary (l op r : Word) (v : Bool) : Triple W vers l op r v → Means W vers [l, op, r] v
  | threeNot (a b : Word) (v : Bool) : a ∉ binaryOperators3 → Means W vers [a, b] v →
      Means W vers ["!".toList, a, b] (!v)
  | threeParen (a : Word) : a ∉ binaryOperators3 →
      Means W vers ["(".toList, a, ")".toList] (a ≠ [])
  | fourNot (a b c : Word) (v : Bool) : Means W vers [a, b, c] v →
      Means W vers ["!".toList, a, b, c] (!v)
  | fourParen (a b : Word) (v : Bool) : Means W vers [a, b] v →
      Means W vers ["(".toList, a, b, ")".toList] v
  | four (a b c d : Word) (e : Expr) (v : Bool) :
      a ≠ "!".toList → ¬ (a = "(".toList ∧ d = ")".toList) →
      Or [a, b, c, d] e [] → Holds W vers e v → Means W vers [a, b, c, d] v
  | long (args : List Word) (e : Expr) (v : Bool) : 5 ≤ args.length →
      Or args e [] → Holds W vers e v → Means W vers args v

end Yash.TestBuiltin.Spec
