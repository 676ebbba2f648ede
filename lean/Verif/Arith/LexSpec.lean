import Verif.Arith.Model
/-!
# Specification of the tokens of an arithmetic expression
-/
set_option autoImplicit false

namespace Yash.Arith.Spec

/-- The operators. -/
def operators : List (List Char × Tok) :=
  [ (['('], .lparen), ([')'], .rparen), (['~'], .tilde), (['!'], .excl), (['?'], .question),
    ([':'], .colon), (['+', '+'], .plusplus), (['-', '-'], .minusminus), (['&', '&'], .ampamp),
    (['|', '|'], .pipepipe),
    (['+'], .calc (.op1 .add)), (['-'], .calc (.op1 .sub)), (['*'], .calc (.op1 .mul)),
    (['/'], .calc (.op1 .div)), (['%'], .calc (.op1 .mod)),
    (['<', '<'], .calc (.op2 .shl)), (['>', '>'], .calc (.op2 .shr)), (['&'], .calc (.op2 .band)),
    (['^'], .calc (.op2 .bxor)), (['|'], .calc (.op2 .bor)),
    (['<'], .cmp .lt), (['<', '='], .cmp .le), (['>'], .cmp .gt), (['>', '='], .cmp .ge),
    (['=', '='], .cmp .eq), (['!', '='], .cmp .ne),
    (['='], .assign none),
    (['+', '='], .assign (some (.op1 .add))), (['-', '='], .assign (some (.op1 .sub))),
    (['*', '='], .assign (some (.op1 .mul))), (['/', '='], .assign (some (.op1 .div))),
    (['%', '='], .assign (some (.op1 .mod))),
    (['<', '<', '='], .assign (some (.op2 .shl))), (['>', '>', '='], .assign (some (.op2 .shr))),
    (['&', '='], .assign (some (.op2 .band))), (['^', '='], .assign (some (.op2 .bxor))),
    (['|', '='], .assign (some (.op2 .bor))) ]

section
variable {D E : Type} (cfg : Cfg D E)

/-- Preprocessing numbers: a digit or a dot, followed by alphanumeric characters, dots, and signs
that follow `e` or `E`. -/
inductive Number : List Char → Prop
  | first {c : Char} : c = '.' ∨ cfg.isDigit c = true → Number [c]
  | char {s : List Char} {c : Char} : Number s → c = '.' ∨ cfg.isAlnum c = true → Number (s ++ [c])
  | sign {s : List Char} {e c : Char} : Number (s ++ [e]) → e = 'e' ∨ e = 'E' → c = '+' ∨ c = '-' →
      Number (s ++ [e] ++ [c])

/-- `Lexeme s t`: the token `t` is spelled `s`. -/
inductive Lexeme : List Char → Tok → Prop
  | operator {s : List Char} {t : Tok} : (s, t) ∈ operators → Lexeme s t
  | ident {c : Char} {cs : List Char} : c = '_' ∨ cfg.isAlpha c = true →
      (∀ d ∈ cs, d = '_' ∨ cfg.isAlnum d = true) → Lexeme (c :: cs) (.ident (c :: cs))
  | number {s : List Char} : Number cfg s → Lexeme s (.num s)

/-- The usual facts about character classes: the characters of operators are in none of them,
digits are not letters, and `_`, `.` and the space are neither. -/
structure SaneClasses : Prop where
  operators : ∀ c, c ∈ ['(', ')', '~', '!', '?', ':', '+', '-', '&', '|', '*', '/', '%', '<', '>',
      '^', '='] → cfg.isSpace c = false ∧ cfg.isDigit c = false ∧ cfg.isAlpha c = false
        ∧ cfg.isAlnum c = false
  underscore : cfg.isDigit '_' = false ∧ cfg.isSpace '_' = false
  dot : cfg.isAlpha '.' = false ∧ cfg.isSpace '.' = false ∧ cfg.isAlnum '.' = false
  digit : ∀ c, cfg.isDigit c = true → cfg.isAlpha c = false ∧ cfg.isSpace c = false
  alpha : ∀ c, cfg.isAlpha c = true → cfg.isSpace c = false
  space : cfg.isSpace ' ' = true ∧ cfg.isAlnum ' ' = false

end

end Yash.Arith.Spec
