import Verif.Parser.Spec
/-!
# The grammar of commands

Which syntax trees stand for well-formed commands: every word is put together from characters, quotations and expansions,
and every command from words, redirections and lists. Nothing here refers to the parser or to the printer.

Left out, although the shell accepts them: here-documents, command substitutions in backquotes, and what the printer is
known not to handle (see `Spec`).
-/
set_option autoImplicit false

namespace Yash.Parser.Grammar

open Syntax Spec
open Expand (Locale)

/-! ## Words -/

/-- A part of a word. -/
inductive Piece where
  | text (s : List Char)
  /-- A dollar sign that stands for itself. -/
  | dollar
  | unit (u : WordUnit)

/-- The word made of the parts; `acc` is text before them. Texts next to each other are one unit, but a dollar sign starts a new
unit. -/
def join (acc : List Char) : List Piece → Word
  | [] => if acc = [] then [] else [.str acc]
  | .text s :: ps => join (acc ++ s) ps
  | .dollar :: ps => (if acc = [] then [] else [.str acc]) ++ join ['$'] ps
  | .unit u :: ps => (if acc = [] then [] else [.str acc]) ++ u :: join [] ps

/-- The first character of the text of the parts. -/
def firstChar : List Piece → Option Char
  | [] => none
  | .text s :: _ => s.head?
  | .dollar :: _ => some '$'
  | .unit _ :: _ => some '$'

/-- The character starts an expansion after a dollar sign. -/
def StartsExpansion (c : Char) : Prop :=
  c ∈ "{(@*#?-$!_".toList ∨ ('0' ≤ c ∧ c ≤ '9') ∨ ('a' ≤ c ∧ c ≤ 'z') ∨ ('A' ≤ c ∧ c ≤ 'Z')

/-- Where a word stands: as a token of a command, or in a parameter expansion before a closing brace, as a pattern to be
replaced, or as an index. -/
inductive Place where
  | token
  | brace
  | pattern
  | index

/-- The characters that end a word unless they are quoted. -/
def Ends (L : Locale) : Place → Char → Prop
  | .token, c => c ∈ "\n;&|<>()".toList ∨ L.blank c = true
  | .brace, c => c = '}'
  | .pattern, c => c = '/' ∨ c = '}'
  | .index, c => c = ',' ∨ c = ']'

/-- A variable, a positional parameter or a special parameter. -/
def Parameter (L : Locale) (n : List Char) : Prop :=
  (∃ c ∈ "@*#?-$!".toList, n = [c]) ∨ (n ≠ [] ∧ ∀ c ∈ n, '0' ≤ c ∧ c ≤ '9') ∨ Name L [.str n]

/-- The expansion is written like another one: `${#[i]}` is the length of an element of a variable without name, `${#-[i]}`
is `$#` or `[i]`, and `${#-}`, `${#?}` and `${##}` are the lengths of `$-`, `$?` and `$#`. -/
def Ambiguous (t : ParamType) (base : ParamBase) (start pattern subst : Word) : Prop :=
  (base = .name ['#'] ∧ start ≠ []) ∨
  (t.number = true ∧ (base = .name ['-'] ∨ base = .name ['?']) ∧ start ≠ []) ∨
  (base = .name ['#'] ∧ pattern = [] ∧ subst = [] ∧
    (t = { op := .minus } ∨ t = { op := .error } ∨ t = { op := .match, head := true }))

/-- The word looks like an assignment. -/
def LooksLikeAssignment (L : Locale) (w : Word) : Prop := ∃ n v us, Name L [.str n] ∧ w = .str (n ++ '=' :: v) :: us

/-- The binary operators in `[[ ]]` other than `=~`. -/
def binaryOperators : List (List Char) :=
  ["=", "==", "===", "!=", "!==", "<", ">", "-eq", "-ne", "-gt", "-ge", "-lt", "-le", "-nt", "-ot", "-ef",
    "-veq", "-vne", "-vgt", "-vge", "-vlt", "-vle"].map String.toList

/-- The unary operators in `[[ ]]`. -/
def unaryOperators : List (List Char) :=
  "bcdefGghkLNnOoprSstuwxz".toList.map fun c => ['-', c]

mutual

/-- An expansion. -/
inductive UnitG (L : Locale) : WordUnit → Prop
  | param {t : ParamType} {base : ParamBase} {start stop pattern subst : Word} :
    BaseG L base → IndexG L start stop → ModG L t pattern subst → ¬Ambiguous t base start pattern subst →
    UnitG L (.param (.mk t base start stop pattern subst))
  | command {l : List AndOr} : ListG L l → UnitG L (.cmdsub (.parsed l))
  | arith {ps : List Piece} : ArithG L 0 ps → UnitG L (.arith (join [] ps))

/-- What is expanded. -/
inductive BaseG (L : Locale) : ParamBase → Prop
  | name {n : List Char} : Parameter L n → BaseG L (.name n)
  | nest {u : WordUnit} : UnitG L u → BaseG L (.nest u)

/-- No index, `[i]` or `[i,j]`. -/
inductive IndexG (L : Locale) : Word → Word → Prop
  | none : IndexG L [] []
  | one {ps : List Piece} : PiecesG L .index false ps → ps ≠ [] → IndexG L (join [] ps) []
  | two {ps qs : List Piece} : PiecesG L .index false ps → ps ≠ [] → PiecesG L .index false qs → qs ≠ [] → IndexG L (join [] ps) (join [] qs)

/-- A modifier. -/
inductive ModG (L : Locale) : ParamType → Word → Word → Prop
  | plain : ModG L {} [] []
  /-- `${#name}` -/
  | length : ModG L { number := true } [] []
  /-- `${name-word}` and the like -/
  | value {op : ParamOp} {colon : Bool} {ps : List Piece} : op ∈ [ParamOp.minus, .plus, .assign, .error] → PiecesG L .brace false ps →
    ModG L { op := op, colon := colon } [] (join [] ps)
  /-- `${name#pattern}` -/
  | shortPrefix {ps : List Piece} : PiecesG L .brace false ps → ps.head? ≠ some (.text ['#']) →
    ModG L { op := .match, head := true } (join [] ps) []
  /-- `${name##pattern}` -/
  | longPrefix {ps : List Piece} : PiecesG L .brace false ps → ModG L { op := .match, head := true, longest := true } (join [] ps) []
  /-- `${name%pattern}` -/
  | shortSuffix {ps : List Piece} : PiecesG L .brace false ps → ps.head? ≠ some (.text ['%']) →
    ModG L { op := .match, tail := true } (join [] ps) []
  /-- `${name%%pattern}` -/
  | longSuffix {ps : List Piece} : PiecesG L .brace false ps → ModG L { op := .match, tail := true, longest := true } (join [] ps) []
  /-- `${name/pattern/word}` -/
  | replaceFirst {ps qs : List Piece} : PiecesG L .pattern false ps → ps ≠ [] → ps.head? ≠ some (.text ['#']) → ps.head? ≠ some (.text ['%']) →
    PiecesG L .brace false qs → ModG L { op := .subst, longest := true } (join [] ps) (join [] qs)
  /-- `${name//pattern/word}` -/
  | replaceAll {ps qs : List Piece} : PiecesG L .pattern false ps → PiecesG L .brace false qs →
    ModG L { op := .subst, all := true, longest := true } (join [] ps) (join [] qs)
  /-- `${name/#pattern/word}` -/
  | replacePrefix {ps qs : List Piece} : PiecesG L .pattern false ps → PiecesG L .brace false qs →
    ModG L { op := .subst, head := true, longest := true } (join [] ps) (join [] qs)
  /-- `${name/%pattern/word}` -/
  | replaceSuffix {ps qs : List Piece} : PiecesG L .pattern false ps → PiecesG L .brace false qs →
    ModG L { op := .subst, tail := true, longest := true } (join [] ps) (join [] qs)
  /-- `${name:/pattern/word}` -/
  | replaceWhole {ps qs : List Piece} : PiecesG L .pattern false ps → PiecesG L .brace false qs →
    ModG L { op := .subst, colon := true, head := true, tail := true, longest := true } (join [] ps) (join [] qs)

/-- The parts of a word, or of what is left of it after an opening double quote. -/
inductive PiecesG (L : Locale) : Place → Bool → List Piece → Prop
  | nil (p : Place) : PiecesG L p false []
  | char {p : Place} {c : Char} {ps : List Piece} : ¬Ends L p c → c ∉ "\\$`'\"".toList → PiecesG L p false ps → PiecesG L p false (.text [c] :: ps)
  | backslash {p : Place} {q : Bool} {c : Char} {ps : List Piece} : c ≠ '\n' → PiecesG L p q ps → PiecesG L p q (.text ['\\', c] :: ps)
  | single {p : Place} {s : List Char} {ps : List Piece} : '\'' ∉ s → PiecesG L p false ps → PiecesG L p false (.text ('\'' :: s ++ ['\'']) :: ps)
  | «open» {p : Place} {ps : List Piece} : PiecesG L p true ps → PiecesG L p false (.text ['"'] :: ps)
  | close {p : Place} {ps : List Piece} : PiecesG L p false ps → PiecesG L p true (.text ['"'] :: ps)
  | quoted {p : Place} {c : Char} {ps : List Piece} : c ∉ "\\$`\"".toList → PiecesG L p true ps → PiecesG L p true (.text [c] :: ps)
  | dollar {p : Place} {q : Bool} {ps : List Piece} : (∀ c ∈ firstChar ps, ¬StartsExpansion c) → PiecesG L p q ps → PiecesG L p q (.dollar :: ps)
  | unit {p : Place} {q : Bool} {u : WordUnit} {ps : List Piece} : UnitG L u → PiecesG L p q ps → PiecesG L p q (.unit u :: ps)

/-- The rest of an arithmetic expression inside `nest` parentheses. -/
inductive ArithG (L : Locale) : Nat → List Piece → Prop
  | nil : ArithG L 0 []
  | char {nest : Nat} {c : Char} {ps : List Piece} : c ∉ "\\$`()".toList → ArithG L nest ps → ArithG L nest (.text [c] :: ps)
  | backslash {nest : Nat} {c : Char} {ps : List Piece} : c ≠ '\n' → ArithG L nest ps → ArithG L nest (.text ['\\', c] :: ps)
  | «open» {nest : Nat} {ps : List Piece} : ArithG L (nest + 1) ps → ArithG L nest (.text ['('] :: ps)
  | close {nest : Nat} {ps : List Piece} : ArithG L nest ps → ArithG L (nest + 1) (.text [')'] :: ps)
  | dollar {nest : Nat} {ps : List Piece} : (∀ c ∈ firstChar ps, ¬StartsExpansion c) → ArithG L nest ps → ArithG L nest (.dollar :: ps)
  | unit {nest : Nat} {u : WordUnit} {ps : List Piece} : UnitG L u → ArithG L nest ps → ArithG L nest (.unit u :: ps)

/-- The rest of a regular expression inside `nest` parentheses. Blanks and operators can stand inside parentheses only, but `|` can
stand everywhere. Quotation marks have no meaning. -/
inductive RegexG (L : Locale) : Nat → List Piece → Prop
  | nil : RegexG L 0 []
  | char {nest : Nat} {c : Char} {ps : List Piece} : c ∉ "\\$`()".toList → (nest ≠ 0 ∨ c = '|' ∨ ¬Ends L .token c) → RegexG L nest ps →
    RegexG L nest (.text [c] :: ps)
  | backslash {nest : Nat} {c : Char} {ps : List Piece} : c ≠ '\n' → RegexG L nest ps → RegexG L nest (.text ['\\', c] :: ps)
  | «open» {nest : Nat} {ps : List Piece} : RegexG L (nest + 1) ps → RegexG L nest (.text ['('] :: ps)
  | close {nest : Nat} {ps : List Piece} : RegexG L nest ps → RegexG L (nest + 1) (.text [')'] :: ps)
  | dollar {nest : Nat} {ps : List Piece} : (∀ c ∈ firstChar ps, ¬StartsExpansion c) → RegexG L nest ps → RegexG L nest (.dollar :: ps)
  | unit {nest : Nat} {u : WordUnit} {ps : List Piece} : UnitG L u → RegexG L nest ps → RegexG L nest (.unit u :: ps)

/-- What can stand after `=~`: a word, perhaps followed by more that starts with `(` or `|`. -/
inductive RegexWordG (L : Locale) : Word → Prop
  | word {w : Word} : WordG L w → w ≠ [.str "]]".toList] → RegexWordG L w
  | more {w : Word} {ps : List Piece} : WordG L w → RegexG L 0 ps → firstChar ps = some '(' ∨ firstChar ps = some '|' →
    ¬(EndsWithDollar w ∧ firstChar ps = some '(') → RegexWordG L (w ++ join [] ps)
  | only {ps : List Piece} : RegexG L 0 ps → firstChar ps = some '(' ∨ firstChar ps = some '|' → RegexWordG L (join [] ps)

/-- A word that is a token. -/
inductive WordG (L : Locale) : Word → Prop
  | mk {ps : List Piece} : PiecesG L .token false ps → ps ≠ [] → ps.head? ≠ some (.text ['#']) → WordG L (join [] ps)

inductive AssignG (L : Locale) : Assign → Prop
  | scalar {n : List Char} {ps : List Piece} : Name L [.str n] → PiecesG L .token false ps → ¬EndsWithSpace (join [] ps) →
    AssignG L (.scalar n (join [] ps))
  | array {n : List Char} {ws : List Word} : Name L [.str n] → (∀ w ∈ ws, WordG L w) → (∀ w ∈ ws, ¬EndsWithSpace w) → AssignG L (.array n ws)

inductive RedirG (L : Locale) : Redir → Prop
  | file {t : FileRedir} {fd : Nat} {w : Word} : fd ≤ maxFd → WordG L w → ¬EndsWithSpace w → RedirG L (.file t fd w)
  | proc {isIn : Bool} {fd : Nat} {l : List AndOr} : fd ≤ maxFd → ListG L l → RedirG L (.proc isIn fd (.parsed l))

inductive CommandG (L : Locale) : Command → Prop
  | simple {rs : List Redir} {as : List Assign} {ws : List Word} : (∀ x ∈ rs, RedirG L x) → (∀ a ∈ as, AssignG L a) → (∀ w ∈ ws, WordG L w) →
    (∀ w ∈ ws, ¬EndsWithSpace w) → (∀ w ∈ ws.head?, ¬LooksLikeAssignment L w) → (as = [] → ∀ w ∈ ws.head?, ¬Keyword w) →
    ¬(ws = [] ∧ as = [] ∧ rs = []) → CommandG L (.simple rs as ws)
  | compound {c : Command} : CompoundG L c → CommandG L c
  /-- `name() command` -/
  | function {n : List Char} {c : Command} : Name L [.str n] → n ∉ keywords → CompoundG L c → CommandG L (.funcdef [] [.str n] c)

inductive CompoundG (L : Locale) : Command → Prop
  | group {rs : List Redir} {l : List AndOr} : ListG L l → (∀ x ∈ rs, RedirG L x) → CompoundG L (.group rs l)
  | subshell {rs : List Redir} {l : List AndOr} : ListG L l → (∀ x ∈ rs, RedirG L x) → CompoundG L (.subshell rs l)
  | «if» {rs : List Redir} {cs : List (List AndOr × List AndOr)} {e : Option (List AndOr)} : cs ≠ [] → (∀ c ∈ cs, c.1 ≠ []) →
    (∀ c ∈ cs, ListG L c.1) → (∀ c ∈ cs, ListG L c.2) → (∀ l ∈ e, ListG L l) → (∀ x ∈ rs, RedirG L x) →
    CompoundG L (.ifs rs (cs.map (fun c => .cond c.1 c.2) ++ (e.map .els).toList))
  | «for» {rs : List Redir} {n : List Char} {ws : Option (List Word)} {l : List AndOr} : Name L [.str n] → (∀ v ∈ ws, ∀ w ∈ v, WordG L w) →
    ListG L l → (∀ x ∈ rs, RedirG L x) → CompoundG L (.fors rs n ws l)
  | «while» {rs : List Redir} {isWhile : Bool} {c l : List AndOr} : ListG L c → ListG L l → (∀ x ∈ rs, RedirG L x) → CompoundG L (.whiles rs isWhile c l)
  | case {rs : List Redir} {w : Word} {cs : List (List Word × List AndOr)} : WordG L w → (∀ c ∈ cs, c.1 ≠ []) → (∀ c ∈ cs, ∀ p ∈ c.1, WordG L p) →
    (∀ c ∈ cs, ListG L c.2) → (∀ x ∈ rs, RedirG L x) → CompoundG L (.cases rs w (cs.map fun c => .mk c.1 c.2))
  | bracket {rs : List Redir} {e : DbExp} : DbG L e → (∀ x ∈ rs, RedirG L x) → CompoundG L (.bracket rs e)
  /-- `function word command` -/
  | function {w : Word} {c : Command} : WordG L w → ¬Name L w → ¬EndsWithDollar w → CompoundG L c → CompoundG L (.funcdef [] w c)

/-- The expressions in `[[ ]]`. -/
inductive DbG (L : Locale) : DbExp → Prop
  | or {l r : DbExp} : ¬IsOr l → DbG L l → DbG L r → DbG L (.or l r)
  | and {l r : DbExp} : ¬IsAnd l → DbG L l → DbG L r → DbG L (.and l r)
  | not {e : DbExp} : DbG L e → DbG L (.not e)
  | unary {op : List Char} {w : Word} : op ∈ unaryOperators → WordG L w → w ≠ [.str "]]".toList] → DbG L (.unary op w)
  | binary {op : List Char} {v w : Word} : op ∈ binaryOperators → WordG L v → v ≠ [.str "]]".toList] → v ≠ [.str "!".toList] →
    (∀ o ∈ unaryOperators, v ≠ [.str o]) → WordG L w → w ≠ [.str "]]".toList] → DbG L (.binary op v w)
  | regex {v w : Word} : WordG L v → v ≠ [.str "]]".toList] → v ≠ [.str "!".toList] → (∀ o ∈ unaryOperators, v ≠ [.str o]) → RegexWordG L w →
    DbG L (.binary "=~".toList v w)
  | string {w : Word} : WordG L w → w ≠ [.str "]]".toList] → w ≠ [.str "!".toList] → (∀ o ∈ unaryOperators, w ≠ [.str o]) → DbG L (.string w)

/-- And-or lists one after another. The first pipeline of each has no operator before it. -/
inductive ListG (L : Locale) : List AndOr → Prop
  | mk {l : List AndOr} : (∀ ps async, .mk ps async ∈ l → ∃ cs neg ps', ps = .mk cs neg false :: ps') →
    (∀ ps async cs neg cond, .mk ps async ∈ l → .mk cs neg cond ∈ ps → cs ≠ []) →
    (∀ ps async cs neg cond c, .mk ps async ∈ l → .mk cs neg cond ∈ ps → c ∈ cs → CommandG L c) → ListG L l

end

end Yash.Parser.Grammar
