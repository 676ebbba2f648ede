import Verif.Syntax.Ast
import Verif.Expand.Types
/-!
# Model of the tokenizer (`parser.c`, lines 286-540 and 930-1250)

All of the input has been read.  The buffer is the text before the current position (in reverse) and the
text after it.  `none` is a syntax error, which makes the whole parse fail (`ps->error` is never reset to
false before the end).  Line numbers are left out, and aliases are disabled.
-/
set_option autoImplicit false

namespace Yash.Syntax

open Expand (Locale)

/-- The buffer `src` and the position `index` (parser.c:546-552). -/
structure Src where
  before : List Char
  rest : List Char
deriving DecidableEq, Repr

/-- Removes line continuations; `maybe_line_continuations` (parser.c:967-975). -/
def lineCont : List Char → List Char
  | '\\' :: '\n' :: r => lineCont r
  | r => r

/-- `tokentype_T` (parser.c:288-307). -/
inductive TokenType where
  | unknown | eoi | word | ioNumber
  | newline
  | amp | ampamp | lparen | rparen | semicolon | doubleSemicolon
  | pipe | pipepipe | less | lessless | lessamp | lesslessdash
  | lesslessless | lessgreater | lesslparen | greater
  | greatergreater | greatergreaterpipe | greaterpipe | greateramp
  | greaterlparen
  | «if» | «then» | «else» | elif | fi | «do» | done | «case» | esac
  | «while» | «until» | «for» | lbrace | rbrace | bang | «in»
  | function
  | doubleLbracket
deriving DecidableEq, Repr

/-- `iswdigit`. -/
def isDigitChar (c : Char) : Bool := decide ('0' ≤ c) && decide (c ≤ '9')

/-- `is_portable_name_char` (parser.c:331-352). -/
def isPortableNameChar (c : Char) : Bool :=
  isDigitChar c || (decide ('a' ≤ c) && decide (c ≤ 'z')) || (decide ('A' ≤ c) && decide (c ≤ 'Z')) || c == '_'

/-- `is_name_char` (parser.c:356-359). -/
def isNameChar (L : Locale) (c : Char) : Bool := c == '_' || L.alnum c

/-- The length of what `skip_name` skips (parser.c:365-371). -/
def skipName (p : Char → Bool) (s : List Char) : List Char × List Char :=
  match s with
  | [] => ([], [])
  | c :: s => if isDigitChar c then ([], c :: s) else ((c :: s).takeWhile p, (c :: s).dropWhile p)

/-- `is_name_by_predicate` (parser.c:375-378). -/
def isNameBy (p : Char → Bool) (s : List Char) : Bool := !s.isEmpty && (skipName p s).2.isEmpty

/-- `identify_reserved_word_string` (parser.c:392-472). -/
def reservedWord (s : List Char) : TokenType :=
  if s = "case".toList then .case
  else if s = "do".toList then .do
  else if s = "done".toList then .done
  else if s = "else".toList then .else
  else if s = "elif".toList then .elif
  else if s = "esac".toList then .esac
  else if s = "fi".toList then .fi
  else if s = "for".toList then .for
  else if s = "function".toList then .function
  else if s = "if".toList then .if
  else if s = "in".toList then .in
  else if s = "then".toList then .then
  else if s = "until".toList then .until
  else if s = "while".toList then .while
  else if s = "{".toList then .lbrace
  else if s = "}".toList then .rbrace
  else if s = "[[".toList then .doubleLbracket
  else if s = "!".toList then .bang
  else .word

/-- `is_single_string_word` (parser.c:480-483) and the string. -/
def singleString : Word → Option (List Char)
  | [.str s] => some s
  | _ => none

/-- `identify_reserved_word` (parser.c:508-513). -/
def reservedWordOf (w : Word) : TokenType :=
  match singleString w with
  | some s => reservedWord s
  | none => .word

/-- `is_digits_only` (parser.c:486-496). -/
def isDigitsOnly (w : Word) : Bool :=
  match singleString w with
  | some s => s.all isDigitChar
  | none => false

/-- `is_token_delimiter_char` (parser.c:1762-1771); the null is the end of the text. -/
def isTokenDelimiter (L : Locale) (c : Char) : Bool :=
  c == '\n' || c == ';' || c == '&' || c == '|' || c == '<' || c == '>' || c == '(' || c == ')' || L.blank c

/-! ## Words -/

/-- `MAKE_WORDUNIT_STRING` (parser.c:1159-1172). -/
def stringUnit (acc : List Char) : Word := if acc.isEmpty then [] else [.str acc]

/-- The type of `parse_special_word_unit`. -/
abbrev Special := Bool → Src → Option (Option WordUnit × Src)

/-- The loop in `parse_word` (parser.c:1174-1222).  `acc` is the text from `startindex`.  The loop ends
because every round makes the text shorter; the bound is the length of the text. -/
def parseWordLoop (special : Special) (delim : Char → Bool) :
    Nat → Bool → List Char → Src → Option (Word × Src)
  | 0, _, _, _ => none
  | n + 1, indq, acc, ⟨b, r⟩ =>
    match lineCont r with
    | [] => if indq then none else some (stringUnit acc, ⟨b, []⟩)
    | c :: r =>
      if !indq && delim c then some (stringUnit acc, ⟨b, c :: r⟩)
      else if c == '\\' then
        match r with
        | [] => parseWordLoop special delim n indq (acc ++ ['\\']) ⟨'\\' :: b, []⟩
        | d :: r => parseWordLoop special delim n indq (acc ++ ['\\', d]) ⟨d :: '\\' :: b, r⟩
      else if c == '$' || c == '`' then
        match special indq ⟨b, c :: r⟩ with
        | none => none
        | some (some u, st) =>
          match parseWordLoop special delim n indq [] st with
          | none => none
          | some (w, st) => some (stringUnit acc ++ u :: w, st)
        | some (none, ⟨b, []⟩) => some (stringUnit acc, ⟨b, []⟩)
        | some (none, ⟨b, d :: r⟩) =>
          match parseWordLoop special delim n indq [d] ⟨d :: b, r⟩ with
          | none => none
          | some (w, st) => some (stringUnit acc ++ w, st)
      else if c == '\'' && !indq then
        match r.dropWhile (· ≠ '\'') with
        | [] => none
        | _ :: r' =>
          parseWordLoop special delim n indq (acc ++ '\'' :: r.takeWhile (· ≠ '\'') ++ ['\''])
            ⟨'\'' :: (r.takeWhile (· ≠ '\'')).reverse ++ '\'' :: b, r'⟩
      else parseWordLoop special delim n (if c == '"' then !indq else indq) (acc ++ [c]) ⟨c :: b, r⟩

/-- `parse_word` (parser.c:1151-1225). -/
def parseWord (special : Special) (delim : Char → Bool) (st : Src) : Option (Word × Src) :=
  parseWordLoop special delim (st.rest.length + 1) false [] st

/-! ## Tokens -/

/-- The current token: `tokentype`, `token`, the text from `index` to `next_index` and the text after
`next_index`. -/
structure Token where
  type : TokenType
  word : Word := []
  text : List Char := []
  src : Src

/-- Skips blanks and line continuations (parser.c:1030-1039). -/
def skipBlanks (L : Locale) : List Char → List Char → Src
  | b, '\\' :: '\n' :: r => skipBlanks L b r
  | b, c :: r => if L.blank c then skipBlanks L (c :: b) r else ⟨b, c :: r⟩
  | b, [] => ⟨b, []⟩

/-- Skips a comment (parser.c:1042-1043). -/
def skipComment (st : Src) : Src :=
  match st.rest with
  | '#' :: r => ⟨(r.takeWhile (· ≠ '\n')).reverse ++ '#' :: st.before, r.dropWhile (· ≠ '\n')⟩
  | _ => st

/-- An operator token. -/
def opToken (t : TokenType) (text : List Char) (b r : List Char) : Token :=
  { type := t, text := text, src := ⟨text.reverse ++ b, r⟩ }

/-- The token at a position that is not in blanks or in a comment (parser.c:1045-1139). -/
def tokenAt (L : Locale) (special : Special) : Src → Option Token
  | ⟨b, []⟩ => some { type := .eoi, src := ⟨b, []⟩ }
  | ⟨b, c :: r⟩ =>
    if c == '\n' then some (opToken .newline [c] b r)
    else if c == '(' then some (opToken .lparen [c] b r)
    else if c == ')' then some (opToken .rparen [c] b r)
    else if c == ';' then
      match lineCont r with
      | ';' :: r => some (opToken .doubleSemicolon ";;".toList b r)
      | r => some (opToken .semicolon ";".toList b r)
    else if c == '&' then
      match lineCont r with
      | '&' :: r => some (opToken .ampamp "&&".toList b r)
      | r => some (opToken .amp "&".toList b r)
    else if c == '|' then
      match lineCont r with
      | '|' :: r => some (opToken .pipepipe "||".toList b r)
      | r => some (opToken .pipe "|".toList b r)
    else if c == '<' then
      match lineCont r with
      | '>' :: r => some (opToken .lessgreater "<>".toList b r)
      | '(' :: r => some (opToken .lesslparen "<(".toList b r)
      | '&' :: r => some (opToken .lessamp "<&".toList b r)
      | '<' :: r =>
        match lineCont r with
        | '-' :: r => some (opToken .lesslessdash "<<-".toList b r)
        | '<' :: r => some (opToken .lesslessless "<<<".toList b r)
        | r => some (opToken .lessless "<<".toList b r)
      | r => some (opToken .less "<".toList b r)
    else if c == '>' then
      match lineCont r with
      | '(' :: r => some (opToken .greaterlparen ">(".toList b r)
      | '&' :: r => some (opToken .greateramp ">&".toList b r)
      | '|' :: r => some (opToken .greaterpipe ">|".toList b r)
      | '>' :: r =>
        match lineCont r with
        | '|' :: r => some (opToken .greatergreaterpipe ">>|".toList b r)
        | r => some (opToken .greatergreater ">>".toList b r)
      | r => some (opToken .greater ">".toList b r)
    else
      match parseWord special (isTokenDelimiter L) ⟨b, c :: r⟩ with
      | none => none
      | some (w, st) =>
        some {
          type :=
            if (st.rest.head? == some '<' || st.rest.head? == some '>') && isDigitsOnly w then .ioNumber
            else reservedWordOf w
          word := w
          text := (st.before.take (st.before.length - b.length)).reverse
          src := st }

/-- `next_token` (parser.c:1021-1143). -/
def nextToken (L : Locale) (special : Special) (st : Src) : Option Token :=
  tokenAt L special (skipComment (skipBlanks L st.before st.rest))

end Yash.Syntax
