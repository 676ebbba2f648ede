import Verif.Syntax.Lex
import Verif.TestBuiltin.Model
/-!
# Model of the parser (`parser.c`, lines 1236-3145)

All of the input has been read (see `Verif.Syntax.Lex`), the shell is not in the POSIXly-correct mode and
aliases are disabled.  `none` is a syntax error.  Here-documents (`<<` and `<<-`) are not part of this model: they
are treated as errors.

The functions that are called recursively are passed as a record `Rec`, and `parser n` ties the knot: nested constructs
are parsed to the depth `n`, and loops run at most `n` rounds.
-/
set_option autoImplicit false

namespace Yash.Parser

open Syntax
open Expand (Locale)

/-- The parser functions that are called recursively. -/
structure Rec where
  /-- A bound on the number of rounds of the loops in the parser. -/
  fuel : Nat
  /-- `parse_compound_list` -/
  list : Token → Option (List AndOr × Token)
  /-- `parse_special_word_unit` -/
  special : Special
  /-- `parse_paramexp_in_brace` -/
  brace : Src → Option (WordUnit × Src)
  /-- `parse_compound_command` -/
  compound : Token → Option (Option Command × Token)
  /-- `parse_double_bracket_ors` -/
  ors : Token → Option (DbExp × Token)

/-! ## Word units -/

/-- Takes the characters of a name, removing line continuations (parser.c:1007-1014 and 1365-1368). -/
def takeName (p : Char → Bool) : List Char → List Char × List Char
  | [] => ([], [])
  | '\\' :: '\n' :: r => takeName p r
  | c :: r => if p c then (c :: (takeName p r).1, (takeName p r).2) else ([], c :: r)

/-- The characters that are parameters by themselves (parser.c:1291-1295 and 1359-1363). -/
def isSpecialParam (c : Char) : Bool :=
  c == '@' || c == '*' || c == '#' || c == '?' || c == '-' || c == '$' || c == '!'

/-- A parameter expansion without index or modifier. -/
def plainParam (name : List Char) : WordUnit := .param (.mk {} (.name name) [] [] [] [])

/-- `tryparse_paramexp_raw` (parser.c:1285-1321).  `b` and `r` are the text before and after the `$`. -/
def rawParam (b r : List Char) : Option WordUnit × Src :=
  match lineCont r with
  | [] => (none, ⟨b, ['$']⟩)
  | c :: r =>
    if isSpecialParam c || isDigitChar c then (some (plainParam [c]), ⟨c :: '$' :: b, r⟩)
    else if isPortableNameChar c then
      (some (plainParam (takeName isPortableNameChar (c :: r)).1),
        ⟨(takeName isPortableNameChar (c :: r)).1.reverse ++ '$' :: b, (takeName isPortableNameChar (c :: r)).2⟩)
    else (none, ⟨b, '$' :: c :: r⟩)

/-- The loop in `parse_cmdsubst_in_backquote` (parser.c:1518-1554); gives the command.  A backslash that is kept is added
together with the character after it. -/
def backquote (bsdq : Bool) (acc b : List Char) : List Char → Option (List Char × Src)
  | [] => none
  | '\\' :: '\n' :: r => backquote bsdq acc b r
  | '`' :: r => some (acc, ⟨'`' :: b, r⟩)
  | ['\\'] => none
  | '\\' :: c :: r =>
    if c == '$' || c == '`' || c == '\\' || (c == '"' && bsdq) then backquote bsdq (acc ++ [c]) (c :: '\\' :: b) r
    else backquote bsdq (acc ++ ['\\', c]) (c :: '\\' :: b) r
  | c :: r => backquote bsdq (acc ++ [c]) (c :: b) r

/-- The loop in `tryparse_arith` (parser.c:1587-1648).  `nest` is `nestparen`, and `acc` is the text from `startindex`.
The inner `none` is `not_arithmetic_expansion`. -/
def arithLoop (R : Rec) : Nat → Nat → List Char → Src → Option (Option Word × Src)
  | 0, _, _, _ => none
  | n + 1, nest, acc, ⟨b, r⟩ =>
    match lineCont r with
    | [] => none
    | c :: r =>
      if c == '\\' then
        match r with
        | [] => none
        | d :: r => arithLoop R n nest (acc ++ ['\\', d]) ⟨d :: '\\' :: b, r⟩
      else if c == '$' || c == '`' then
        match R.special false ⟨b, c :: r⟩ with
        | none => none
        | some (some u, st) =>
          match arithLoop R n nest [] st with
          | none => none
          | some (none, st) => some (none, st)
          | some (some w, st) => some (some (stringUnit acc ++ u :: w), st)
        | some (none, ⟨_, []⟩) => none
        | some (none, ⟨b, d :: r⟩) =>
          match arithLoop R n nest [d] ⟨d :: b, r⟩ with
          | none => none
          | some (none, st) => some (none, st)
          | some (some w, st) => some (some (stringUnit acc ++ w), st)
      else if c == '(' then arithLoop R n (nest + 1) (acc ++ [c]) ⟨c :: b, r⟩
      else if c == ')' then
        match nest with
        | nest + 1 => arithLoop R n nest (acc ++ [c]) ⟨c :: b, r⟩
        | 0 =>
          match lineCont r with
          | [] => none
          | d :: r => if d == ')' then some (some (stringUnit acc), ⟨')' :: ')' :: b, r⟩) else some (none, ⟨b, ')' :: d :: r⟩)
      else arithLoop R n nest (acc ++ [c]) ⟨c :: b, r⟩

/-- `rewind_index` (parser.c:992-1000): back to the position where the text before was `b`. -/
def rewind (b : List Char) (st : Src) : Src :=
  ⟨b, (st.before.take (st.before.length - b.length)).reverse ++ st.rest⟩

/-- `parse_cmdsubst_in_paren` (parser.c:1451-1466) and `extract_command_in_paren` (parser.c:1472-1498): the position is
after the parenthesis. -/
def cmdsub (L : Locale) (R : Rec) (st : Src) : Option (WordUnit × Src) := do
  let tk ← nextToken L R.special st
  let (l, tk) ← R.list tk
  if tk.type == .rparen then some (.cmdsub (.parsed l), tk.src) else none

/-- `is_closing_brace` (parser.c:1783-1786). -/
def isClosingBrace (c : Char) : Bool := c == '}'

/-- `is_slash_or_closing_brace` (parser.c:1778-1781). -/
def isSlashOrClosingBrace (c : Char) : Bool := c == '/' || c == '}'

/-- `is_comma_or_closing_bracket` (parser.c:1773-1776). -/
def isCommaOrClosingBracket (c : Char) : Bool := c == ']' || c == ','

/-- Parses the `#` that makes the length of the value (parser.c:1338-1356).  `b` and `r` are the text before and after the
position. -/
def numberMark (b r : List Char) : Bool × Src :=
  match lineCont r with
  | '#' :: r =>
    match lineCont r with
    | [] => (false, ⟨b, ['#']⟩)
    | c :: r =>
      if c == '}' || c == '+' || c == '=' || c == ':' || c == '/' || c == '%' then (false, ⟨b, '#' :: c :: r⟩)
      else if c == '-' || c == '?' || c == '#' then
        if (lineCont r).head? == some '}' then (true, ⟨'#' :: b, c :: lineCont r⟩) else (false, ⟨b, '#' :: c :: lineCont r⟩)
      else (true, ⟨'#' :: b, c :: r⟩)
  | r => (false, ⟨b, r⟩)

/-- The name of the parameter (parser.c:1377-1397).  Line continuations are not removed after a special parameter. -/
def paramName (L : Locale) (b r : List Char) : Option (ParamBase × Src) :=
  match r with
  | [] => none
  | c :: r =>
    if isSpecialParam c then some (.name [c], ⟨c :: b, r⟩)
    else
      match takeName (isNameChar L) (c :: r) with
      | ([], _) => none
      | (n, r) => some (.name n, ⟨n.reverse ++ b, r⟩)

/-- What is expanded: a parameter or a nested expansion (parser.c:1358-1397). -/
def paramBase (L : Locale) (R : Rec) : Src → Option (ParamBase × Src)
  | ⟨b, '{' :: r⟩ => do
    let (u, st) ← R.brace ⟨'{' :: b, r⟩
    some (.nest u, st)
  | ⟨b, '`' :: r⟩ =>
    match R.special false ⟨b, '`' :: r⟩ with
    | some (some u, st) => some (.nest u, ⟨st.before, lineCont st.rest⟩)
    | _ => none
  | ⟨b, '$' :: r⟩ =>
    if (lineCont r).head? == some '{' || (lineCont r).head? == some '(' then
      match R.special false ⟨b, '$' :: lineCont r⟩ with
      | some (some u, st) => some (.nest u, ⟨st.before, lineCont st.rest⟩)
      | _ => none
    else paramName L b ('$' :: lineCont r)
  | ⟨b, r⟩ => paramName L b r

/-- The indices (parser.c:1401-1420). -/
def paramIndex (R : Rec) : Src → Option (Word × Word × Src)
  | ⟨b, '[' :: r⟩ => do
    let (w, st) ← parseWord R.special isCommaOrClosingBracket ⟨'[' :: b, r⟩
    if w.isEmpty then none
    else
      match st with
      | ⟨b, ']' :: r⟩ => some (w, [], ⟨']' :: b, lineCont r⟩)
      | ⟨b, ',' :: r⟩ => do
        let (w', st) ← parseWord R.special isCommaOrClosingBracket ⟨',' :: b, r⟩
        if w'.isEmpty then none
        else
          match st with
          | ⟨b, ']' :: r⟩ => some (w, w', ⟨']' :: b, lineCont r⟩)
          | _ => none
      | _ => none
  | st => some ([], [], st)

/-- The colon (parser.c:1422-1427). -/
def paramColon : Src → Bool × Src
  | ⟨b, ':' :: r⟩ => (true, ⟨':' :: b, lineCont r⟩)
  | st => (false, st)

/-- The word after `-`, `+`, `=` or `?` and the closing brace (parser.c:1500-1512). -/
def paramSubst (R : Rec) (st : Src) : Option (Word × Src) := do
  let (w, st) ← parseWord R.special isClosingBrace st
  match st with
  | ⟨b, '}' :: r⟩ => some (w, ⟨'}' :: b, r⟩)
  | _ => none

/-- The pattern and the replacement of `${name/pattern/replacement}` (parser.c:1489-1512). -/
def paramReplace (R : Rec) (st : Src) : Option (Word × Word × Src) := do
  let (p, st) ← parseWord R.special isSlashOrClosingBrace st
  match st with
  | ⟨b, '/' :: r⟩ => do
    let (w, st) ← paramSubst R ⟨'/' :: b, r⟩
    some (p, w, st)
  | ⟨b, '}' :: r⟩ => some (p, [], ⟨'}' :: b, r⟩)
  | _ => none

/-- The operator of a modifier that takes a word (parser.c:1432-1435). -/
def substOp (c : Char) : Option ParamOp :=
  if c == '-' then some .minus
  else if c == '+' then some .plus
  else if c == '=' then some .assign
  else if c == '?' then some .error
  else none

/-- The modifier and the closing brace (parser.c:1429-1512). -/
def paramMod (R : Rec) (number colon : Bool) : Src → Option (ParamType × Word × Word × Src)
  | ⟨b, c :: r⟩ =>
    if c == '}' then
      if colon then none else some ({ number := number }, [], [], ⟨'}' :: b, r⟩)
    else if number then none
    else
      match substOp c with
      | some op => do
        let (w, st) ← paramSubst R ⟨c :: b, r⟩
        some ({ op := op, colon := colon }, [], w, st)
      | none =>
        if c == '#' || c == '%' then
          if colon then none
          else if (lineCont r).head? == some c then do
            let (p, st) ← paramSubst R ⟨c :: c :: b, (lineCont r).tail⟩
            some ({ op := .match, head := c == '#', tail := c == '%', longest := true }, p, [], st)
          else do
            let (p, st) ← paramSubst R ⟨c :: b, lineCont r⟩
            some ({ op := .match, head := c == '#', tail := c == '%' }, p, [], st)
        else if c == '/' then
          if colon then do
            let (p, w, st) ← paramReplace R ⟨'/' :: b, lineCont r⟩
            some ({ op := .subst, colon := true, head := true, tail := true, longest := true }, p, w, st)
          else
            match lineCont r with
            | [] => none
            | d :: r =>
              if d == '/' then do
                let (p, w, st) ← paramReplace R ⟨'/' :: '/' :: b, r⟩
                some ({ op := .subst, all := true, longest := true }, p, w, st)
              else if d == '#' then do
                let (p, w, st) ← paramReplace R ⟨'#' :: '/' :: b, r⟩
                some ({ op := .subst, head := true, longest := true }, p, w, st)
              else if d == '%' then do
                let (p, w, st) ← paramReplace R ⟨'%' :: '/' :: b, r⟩
                some ({ op := .subst, tail := true, longest := true }, p, w, st)
              else do
                let (p, w, st) ← paramReplace R ⟨'/' :: b, d :: r⟩
                some ({ op := .subst, longest := true }, p, w, st)
        else none
  | ⟨_, []⟩ => none

/-- `parse_paramexp_in_brace` (parser.c:1326-1446): the position is after the brace. -/
def brace (L : Locale) (R : Rec) (st : Src) : Option (WordUnit × Src) := do
  let (base, st1) ← paramBase L R (numberMark st.before st.rest).2
  let (start, stop, st2) ← paramIndex R st1
  let (type, pattern, subst, st3) ← paramMod R (numberMark st.before st.rest).1 (paramColon st2).1 (paramColon st2).2
  some (.param (.mk type base start stop pattern subst), st3)

/-- `parse_special_word_unit` (parser.c:1254-1279).  When `$((` turns out not to be an arithmetic expansion, the text is
parsed again as a command substitution; the line continuations found by then have been removed from the text. -/
def special (L : Locale) (R : Rec) (indq : Bool) : Src → Option (Option WordUnit × Src)
  | ⟨b, '$' :: r⟩ =>
    match lineCont r with
    | '{' :: r => do
      let (u, st) ← brace L R ⟨'{' :: '$' :: b, r⟩
      some (some u, st)
    | '(' :: r =>
      match lineCont r with
      | '(' :: r' =>
        match arithLoop R R.fuel 0 [] ⟨'(' :: '(' :: '$' :: b, r'⟩ with
        | none => none
        | some (some w, st) => some (some (.arith w), st)
        | some (none, st) => do
          let (u, st) ← cmdsub L R (rewind ('(' :: '$' :: b) st)
          some (some u, st)
      | r' => do
        let (u, st) ← cmdsub L R ⟨'(' :: '$' :: b, r'⟩
        some (some u, st)
    | r => some (rawParam b r)
  | ⟨b, '`' :: r⟩ => do
    let (s, st) ← backquote indq [] ('`' :: b) r
    some (some (.cmdsub (.unparsed s)), st)
  | _ => none

/-! ## Tokens -/

/-- Moves to the next token (parser.c:1021-1143). -/
def next (L : Locale) (R : Rec) (tk : Token) : Option Token := nextToken L R.special tk.src

/-- The loop in `parse_newline_list` (parser.c:1739-1748). -/
def newlinesLoop (L : Locale) (R : Rec) : Nat → Token → Option Token
  | 0, _ => none
  | n + 1, tk =>
    if tk.type == .newline then do
      let tk ← next L R tk
      newlinesLoop L R n tk
    else some tk

/-- `parse_newline_list` (parser.c:1739-1748). -/
def newlines (L : Locale) (R : Rec) (tk : Token) : Option Token := newlinesLoop L R R.fuel tk

/-- The loop in `parse_words` (parser.c:2107-2123). -/
def wordsLoop (L : Locale) (R : Rec) (skip : Bool) : Nat → Token → Option (List Word × Token)
  | 0, _ => none
  | n + 1, tk =>
    if skip && tk.type == .newline then do
      let tk ← newlines L R tk
      wordsLoop L R skip n tk
    else if tk.word.isEmpty then some ([], tk)
    else do
      let tk' ← next L R tk
      let (ws, tk') ← wordsLoop L R skip n tk'
      some (tk.word :: ws, tk')

/-- `parse_words` (parser.c:2107-2123). -/
def words (L : Locale) (R : Rec) (skip : Bool) (tk : Token) : Option (List Word × Token) := wordsLoop L R skip R.fuel tk

/-! ## Redirections and assignments -/

/-- The redirections whose operand is a word (parser.c:2224-2270). -/
def fileRedirOf : TokenType → Option FileRedir
  | .less => some .input
  | .lessgreater => some .inout
  | .lessamp => some .dupin
  | .greater => some .output
  | .greatergreater => some .append
  | .greaterpipe => some .clobber
  | .greateramp => some .dupout
  | .greatergreaterpipe => some .pipe
  | .lesslessless => some .herestr
  | _ => none

/-- `INT_MAX`. -/
def intMax : Nat := 2147483647

/-- The value of a digit string; `wcstoul`. -/
def digitsValue (s : List Char) : Nat := s.foldl (fun n c => n * 10 + (c.toNat - 48)) 0

/-- The file descriptor (parser.c:2199-2210).  The number -1, which stands for a number that is too large, is represented by
`INT_MAX` + 1. -/
def fdOf (w : Word) : Nat :=
  match w with
  | [.str s] => if digitsValue s ≤ intMax then digitsValue s else intMax + 1
  | _ => 0

/-- Operators that start with `<` (parser.c:2212). -/
def startsLess : TokenType → Bool
  | .less | .lessless | .lessamp | .lesslessdash | .lesslessless | .lessgreater | .lesslparen => true
  | _ => false

/-- Operators that start with `>` (parser.c:2214). -/
def startsGreater : TokenType → Bool
  | .greater | .greatergreater | .greatergreaterpipe | .greaterpipe | .greateramp | .greaterlparen => true
  | _ => false

/-- The operator and the operand of a redirection (parser.c:2220-2309). -/
def redirBody (L : Locale) (R : Rec) (fd : Nat) (tk : Token) : Option (Redir × Token) :=
  match fileRedirOf tk.type with
  | some ty => do
    let tk ← next L R tk
    if tk.word.isEmpty then none
    else do
      let tk' ← next L R tk
      some (.file ty fd tk.word, tk')
  | none =>
    if tk.type == .lesslparen || tk.type == .greaterlparen then do
      let tk1 ← next L R tk
      let (l, tk2) ← R.list tk1
      if tk2.type == .rparen then do
        let tk3 ← next L R tk2
        some (.proc (tk.type == .lesslparen) fd (.parsed l), tk3)
      else none
    else none

/-- `tryparse_redirect` (parser.c:2192-2310). -/
def tryRedirect (L : Locale) (R : Rec) (tk : Token) : Option (Option Redir × Token) :=
  if tk.type == .ioNumber then do
    let tk' ← next L R tk
    let (r, tk') ← redirBody L R (fdOf tk.word) tk'
    some (some r, tk')
  else if startsLess tk.type then do
    let (r, tk) ← redirBody L R 0 tk
    some (some r, tk)
  else if startsGreater tk.type then do
    let (r, tk) ← redirBody L R 1 tk
    some (some r, tk)
  else some (none, tk)

/-- The loop in `parse_redirect_list` (parser.c:2128-2139). -/
def redirsLoop (L : Locale) (R : Rec) : Nat → Token → Option (List Redir × Token)
  | 0, _ => none
  | n + 1, tk =>
    match tryRedirect L R tk with
    | none => none
    | some (none, tk) => some ([], tk)
    | some (some r, tk) => do
      let (rs, tk) ← redirsLoop L R n tk
      some (r :: rs, tk)

/-- `parse_redirect_list` (parser.c:2128-2139). -/
def redirs (L : Locale) (R : Rec) (tk : Token) : Option (List Redir × Token) := redirsLoop L R R.fuel tk

/-- Splits an assignment word into the name and the value (parser.c:2149-2169). -/
def splitAssign (L : Locale) (w : Word) : Option (List Char × Word) :=
  match w with
  | .str s :: us =>
    match skipName (isNameChar L) s with
    | (c :: n, '=' :: v) => some (c :: n, if v.isEmpty then us else .str v :: us)
    | _ => none
  | _ => none

/-- `tryparse_assignment` (parser.c:2145-2188).  The parenthesis of an array must come right after the `=`. -/
def tryAssign (L : Locale) (R : Rec) (tk : Token) : Option (Option Assign × Token) :=
  match splitAssign L tk.word with
  | none => some (none, tk)
  | some (name, w) => do
    let tk1 ← next L R tk
    if w.isEmpty && (lineCont tk.src.rest).head? == some '(' then do
      let tk2 ← next L R tk1
      let (ws, tk3) ← words L R true tk2
      if tk3.type == .rparen then do
        let tk4 ← next L R tk3
        some (some (.array name ws), tk4)
      else none
    else some (some (.scalar name w), tk1)

/-- The parts of a simple command. -/
structure Simple where
  redirs : List Redir
  assigns : List Assign
  words : List Word

/-- `parse_simple_command_tokens` (parser.c:2061-2098).  `first` is true before the first word. -/
def simpleLoop (L : Locale) (R : Rec) : Nat → Bool → Token → Option (Simple × Token)
  | 0, _, _ => none
  | n + 1, first, tk =>
    match tryRedirect L R tk with
    | none => none
    | some (some r, tk) => do
      let (s, tk) ← simpleLoop L R n first tk
      some ({ s with redirs := r :: s.redirs }, tk)
    | some (none, tk) =>
      match if first then tryAssign L R tk else some (none, tk) with
      | none => none
      | some (some a, tk) => do
        let (s, tk) ← simpleLoop L R n first tk
        some ({ s with assigns := a :: s.assigns }, tk)
      | some (none, tk) =>
        if tk.word.isEmpty then some (⟨[], [], []⟩, tk)
        else do
          let tk' ← next L R tk
          let (s, tk') ← simpleLoop L R n false tk'
          some ({ s with words := tk.word :: s.words }, tk')

/-! ## Compound commands -/

/-- `is_closing_tokentype` (parser.c:517-534). -/
def isClosing : TokenType → Bool
  | .rparen | .rbrace | .then | .elif | .else | .fi | .do | .done | .doubleSemicolon | .esac => true
  | _ => false

/-- `is_name_word` (parser.c:498-504). -/
def isNameWord (L : Locale) (w : Word) : Bool :=
  match singleString w with
  | some s => isNameBy (isNameChar L) s
  | none => false

/-- Proceeds if the current token is of the type. -/
def expect (L : Locale) (R : Rec) (ty : TokenType) (tk : Token) : Option Token :=
  if tk.type == ty then next L R tk else none

/-- `parse_group` (parser.c:2400-2443). -/
def group (L : Locale) (R : Rec) (tk : Token) : Option (Command × Token) := do
  let tk1 ← next L R tk
  let (l, tk2) ← R.list tk1
  if tk.type == .lbrace then do
    let tk3 ← expect L R .rbrace tk2
    some (.group [] l, tk3)
  else do
    let tk3 ← expect L R .rparen tk2
    some (.subshell [] l, tk3)

/-- An absent condition is a null pointer, whatever the keyword is. -/
def ifClause (c body : List AndOr) : IfClause := if c.isEmpty then .els body else .cond c body

/-- The loop in `parse_if` (parser.c:2463-2503); the current token is the one after `if` or `elif`. -/
def ifLoop (L : Locale) (R : Rec) : Nat → Token → Option (List IfClause × Token)
  | 0, _ => none
  | n + 1, tk => do
    let (c, tk1) ← R.list tk
    let tk2 ← expect L R .then tk1
    let (b, tk3) ← R.list tk2
    if tk3.type == .else then do
      let tk4 ← next L R tk3
      let (e, tk5) ← R.list tk4
      let tk6 ← expect L R .fi tk5
      some ([ifClause c b, .els e], tk6)
    else if tk3.type == .elif then do
      let tk4 ← next L R tk3
      let (cs, tk5) ← ifLoop L R n tk4
      some (ifClause c b :: cs, tk5)
    else do
      let tk4 ← expect L R .fi tk3
      some ([ifClause c b], tk4)

/-- `parse_if` (parser.c:2447-2504). -/
def ifCommand (L : Locale) (R : Rec) (tk : Token) : Option (Command × Token) := do
  let tk1 ← next L R tk
  let (cs, tk2) ← ifLoop L R R.fuel tk1
  some (.ifs [] cs, tk2)

/-- The words of a `for` command (parser.c:2531-2550); `late` means that there was a newline after the name. -/
def forWords (L : Locale) (R : Rec) (late : Bool) (tk : Token) : Option (Option (List Word) × Token) :=
  if tk.type == .in then do
    let tk1 ← next L R tk
    let (ws, tk2) ← words L R false tk1
    if tk2.type == .semicolon then do
      let tk3 ← next L R tk2
      some (some ws, tk3)
    else some (some ws, tk2)
  else if tk.type == .semicolon then
    if late then none
    else do
      let tk1 ← next L R tk
      some (none, tk1)
  else some (none, tk)

/-- `parse_for` (parser.c:2508-2572). -/
def forCommand (L : Locale) (R : Rec) (tk : Token) : Option (Command × Token) := do
  let tk1 ← next L R tk
  if isNameWord L tk1.word then do
    let tk2 ← next L R tk1
    let tk3 ← newlines L R tk2
    let (ws, tk4) ← forWords L R (tk2.type == .newline) tk3
    let tk5 ← newlines L R tk4
    let tk6 ← expect L R .do tk5
    let (l, tk7) ← R.list tk6
    let tk8 ← expect L R .done tk7
    some (.fors [] tk1.text ws l, tk8)
  else none

/-- `parse_while` (parser.c:2577-2618). -/
def whileCommand (L : Locale) (R : Rec) (tk : Token) : Option (Command × Token) := do
  let tk1 ← next L R tk
  let (c, tk2) ← R.list tk1
  let tk3 ← expect L R .do tk2
  let (l, tk4) ← R.list tk3
  let tk5 ← expect L R .done tk4
  some (.whiles [] (tk.type == .while) c l, tk5)

/-- The loop in `parse_case_patterns` (parser.c:2708-2740). -/
def patternsLoop (L : Locale) (R : Rec) : Nat → Token → Option (List Word × Token)
  | 0, _ => none
  | n + 1, tk =>
    if tk.word.isEmpty then none
    else do
      let tk1 ← next L R tk
      if tk1.type == .pipe then do
        let tk2 ← next L R tk1
        let (ps, tk3) ← patternsLoop L R n tk2
        some (tk.word :: ps, tk3)
      else do
        let tk2 ← expect L R .rparen tk1
        some ([tk.word], tk2)

/-- `parse_case_patterns` (parser.c:2694-2743). -/
def patterns (L : Locale) (R : Rec) (tk : Token) : Option (List Word × Token) :=
  if tk.type == .lparen then do
    let tk ← next L R tk
    patternsLoop L R R.fuel tk
  else patternsLoop L R R.fuel tk

/-- `parse_case_list` (parser.c:2663-2689). -/
def caseLoop (L : Locale) (R : Rec) : Nat → Token → Option (List CaseItem × Token)
  | 0, _ => none
  | n + 1, tk => do
    let tk1 ← newlines L R tk
    if tk1.type == .esac then some ([], tk1)
    else do
      let (ps, tk2) ← patterns L R tk1
      let (l, tk3) ← R.list tk2
      if tk3.type == .doubleSemicolon then do
        let tk4 ← next L R tk3
        let (cs, tk5) ← caseLoop L R n tk4
        some (.mk ps l :: cs, tk5)
      else some ([.mk ps l], tk3)

/-- `parse_case` (parser.c:2622-2660). -/
def caseCommand (L : Locale) (R : Rec) (tk : Token) : Option (Command × Token) := do
  let tk1 ← next L R tk
  if tk1.word.isEmpty then none
  else do
    let tk2 ← next L R tk1
    let tk3 ← newlines L R tk2
    let tk4 ← expect L R .in tk3
    let (cs, tk5) ← caseLoop L R R.fuel tk4
    let tk6 ← expect L R .esac tk5
    some (.cases [] tk1.word cs, tk6)

/-! ## The double bracket command -/

/-- `]]`. -/
def isDoubleRbracket (w : Word) : Bool :=
  match singleString w with
  | some s => s == "]]".toList
  | none => false

/-- `parse_double_bracket_operand` (parser.c:2909-2934). -/
def operand (L : Locale) (R : Rec) (tk : Token) : Option (Word × Token) :=
  if isDoubleRbracket tk.word || tk.word.isEmpty then none
  else do
    let tk1 ← next L R tk
    some (tk.word, tk1)

/-- The loop in `parse_double_bracket_operand_regex` (parser.c:2977-3032).  `nest` is `nestparen`. -/
def regexLoop (L : Locale) (R : Rec) : Nat → Nat → List Char → Src → Option (Word × Src)
  | 0, _, _, _ => none
  | n + 1, nest, acc, ⟨b, r⟩ =>
    match lineCont r with
    | [] => none
    | c :: r =>
      if c == '\\' then
        match r with
        | [] => none
        | d :: r => regexLoop L R n nest (acc ++ ['\\', d]) ⟨d :: '\\' :: b, r⟩
      else if c == '$' || c == '`' then
        match R.special false ⟨b, c :: r⟩ with
        | none => none
        | some (some u, st) => do
          let (w, st) ← regexLoop L R n nest [] st
          some (stringUnit acc ++ u :: w, st)
        | some (none, ⟨_, []⟩) => none
        | some (none, ⟨b, d :: r⟩) => do
          let (w, st) ← regexLoop L R n nest [d] ⟨d :: b, r⟩
          some (stringUnit acc ++ w, st)
      else if c == '(' then regexLoop L R n (nest + 1) (acc ++ [c]) ⟨c :: b, r⟩
      else if c == ')' then
        match nest with
        | nest + 1 => regexLoop L R n nest (acc ++ [c]) ⟨c :: b, r⟩
        | 0 => none
      else if c == '|' || nest != 0 || !isTokenDelimiter L c then regexLoop L R n nest (acc ++ [c]) ⟨c :: b, r⟩
      else some (stringUnit acc, ⟨b, c :: r⟩)

/-- `parse_double_bracket_operand_regex` (parser.c:2938-3040).  If the token is `(` or begins with `|`, the word
starts at the token; otherwise the word that was read is extended. -/
def regexOperand (L : Locale) (R : Rec) (tk : Token) : Option (Word × Token) :=
  if tk.word.isEmpty then
    if tk.type == .lparen || tk.type == .pipe || tk.type == .pipepipe then do
      let (w, st) ← regexLoop L R R.fuel 0 []
        ⟨tk.src.before.drop tk.text.length, tk.text ++ tk.src.rest⟩
      operand L R { type := .word, word := w, src := st }
    else none
  else do
    let (w, st) ← regexLoop L R R.fuel 0 [] tk.src
    operand L R { type := .word, word := tk.word ++ w, src := st }

/-- `is_unary_primary` of a token. -/
def unaryOf (w : Word) : Option (List Char) :=
  match singleString w with
  | some s => if TestBuiltin.isUnaryPrimary s then some s else none
  | none => none

/-- `is_binary_primary` of a token; `<` and `>` are operator tokens (parser.c:2868-2880). -/
def binaryOf (tk : Token) : Option (List Char) :=
  if tk.type == .less || tk.type == .greater then some tk.text
  else
    match singleString tk.word with
    | some s => if TestBuiltin.isBinaryPrimary s then some s else none
    | none => none

/-- `parse_double_bracket_primary` (parser.c:2826-2905). -/
def primary (L : Locale) (R : Rec) (tk : Token) : Option (DbExp × Token) :=
  if tk.type == .lparen then do
    let tk1 ← next L R tk
    let (e, tk2) ← R.ors tk1
    let tk3 ← expect L R .rparen tk2
    some (e, tk3)
  else
    match unaryOf tk.word with
    | some op => do
      let tk1 ← next L R tk
      let (w, tk2) ← operand L R tk1
      some (.unary op w, tk2)
    | none => do
      let (l, tk1) ← operand L R tk
      match binaryOf tk1 with
      | some op => do
        let tk2 ← next L R tk1
        if op == "=~".toList then do
          let (w, tk3) ← regexOperand L R tk2
          some (.binary op l w, tk3)
        else do
          let (w, tk3) ← operand L R tk2
          some (.binary op l w, tk3)
      | none => some (.string l, tk1)

/-- `parse_double_bracket_nots` (parser.c:2807-2821). -/
def notsLoop (L : Locale) (R : Rec) : Nat → Token → Option (DbExp × Token)
  | 0, _ => none
  | n + 1, tk =>
    if tk.type == .bang then do
      let tk1 ← next L R tk
      let (e, tk2) ← notsLoop L R n tk1
      some (.not e, tk2)
    else primary L R tk

/-- `parse_double_bracket_ands` (parser.c:2788-2802). -/
def andsLoop (L : Locale) (R : Rec) : Nat → Token → Option (DbExp × Token)
  | 0, _ => none
  | n + 1, tk => do
    let (l, tk1) ← notsLoop L R R.fuel tk
    if tk1.type == .ampamp then do
      let tk2 ← next L R tk1
      let (r, tk3) ← andsLoop L R n tk2
      some (.and l r, tk3)
    else some (l, tk1)

/-- `parse_double_bracket_ors` (parser.c:2769-2783). -/
def orsLoop (L : Locale) (R : Rec) : Nat → Token → Option (DbExp × Token)
  | 0, _ => none
  | n + 1, tk => do
    let (l, tk1) ← andsLoop L R R.fuel tk
    if tk1.type == .pipepipe then do
      let tk2 ← next L R tk1
      let (r, tk3) ← orsLoop L R n tk2
      some (.or l r, tk3)
    else some (l, tk1)

/-- `parse_double_bracket` (parser.c:2751-2787). -/
def bracket (L : Locale) (R : Rec) (tk : Token) : Option (Command × Token) := do
  let tk1 ← next L R tk
  let (e, tk2) ← orsLoop L R R.fuel tk1
  if isDoubleRbracket tk2.word then do
    let tk3 ← next L R tk2
    some (.bracket [] e, tk3)
  else none

/-! ## Commands -/

/-- The body of a function definition (parser.c:3079-3090 and 3135-3143). -/
def functionBody (L : Locale) (R : Rec) (name : Word) (tk : Token) : Option (Command × Token) := do
  let tk1 ← newlines L R tk
  match R.compound tk1 with
  | some (some c, tk2) => some (.funcdef [] name c, tk2)
  | _ => none

/-- `parse_function` (parser.c:3046-3093).  When the parenthesis is not followed by `)`, the position is put back to it. -/
def function (L : Locale) (R : Rec) (tk : Token) : Option (Command × Token) := do
  let tk1 ← next L R tk
  if tk1.word.isEmpty then none
  else do
    let tk2 ← next L R tk1
    if tk2.type == .lparen then do
      let tk3 ← next L R tk2
      if tk3.type == .rparen then do
        let tk4 ← next L R tk3
        functionBody L R tk1.word tk4
      else functionBody L R tk1.word tk2
    else functionBody L R tk1.word tk2

/-- Sets the redirections of a compound command. -/
def withRedirs (rs : List Redir) : Command → Command
  | .simple _ as ws => .simple rs as ws
  | .group _ l => .group rs l
  | .subshell _ l => .subshell rs l
  | .ifs _ cs => .ifs rs cs
  | .fors _ n ws l => .fors rs n ws l
  | .whiles _ t c l => .whiles rs t c l
  | .cases _ w cs => .cases rs w cs
  | .bracket _ e => .bracket rs e
  | .funcdef _ n c => .funcdef rs n c

/-- The part of `parse_compound_command` before the redirections (parser.c:2333-2362). -/
def compoundHead (L : Locale) (R : Rec) (tk : Token) : Option (Option (Command × Token)) :=
  match tk.type with
  | .lparen | .lbrace => (group L R tk).map some
  | .if => (ifCommand L R tk).map some
  | .for => (forCommand L R tk).map some
  | .function => (function L R tk).map some
  | .while | .until => (whileCommand L R tk).map some
  | .case => (caseCommand L R tk).map some
  | .doubleLbracket => (bracket L R tk).map some
  | _ => some none

/-- `parse_compound_command` (parser.c:2330-2382); the inner `none` means that the token does not start a compound
command. -/
def compound (L : Locale) (R : Rec) (tk : Token) : Option (Option Command × Token) :=
  match compoundHead L R tk with
  | none => none
  | some none => some (none, tk)
  | some (some (c, tk)) => do
    let (rs, tk) ← redirs L R tk
    some (some (withRedirs rs c), tk)

/-- `try_reparse_as_function` (parser.c:3102-3145). -/
def tryFunction (L : Locale) (R : Rec) (s : Simple) (tk : Token) : Option (Command × Token) :=
  if tk.type == .lparen then
    match s with
    | ⟨[], [], [name]⟩ =>
      if isNameWord L name then do
        let tk1 ← next L R tk
        let tk2 ← expect L R .rparen tk1
        functionBody L R name tk2
      else none
    | _ => none
  else some (.simple s.redirs s.assigns s.words, tk)

/-- `parse_command` (parser.c:2016-2056). -/
def command (L : Locale) (R : Rec) (tk : Token) : Option (Command × Token) :=
  if tk.type == .bang || tk.type == .in || isClosing tk.type then none
  else
    match compound L R tk with
    | none => none
    | some (some c, tk) => some (c, tk)
    | some (none, tk) => do
      let (s, tk) ← simpleLoop L R R.fuel true tk
      if s.words.isEmpty && s.assigns.isEmpty && s.redirs.isEmpty then none
      else tryFunction L R s tk

/-- `parse_commands_in_pipeline` (parser.c:1981-2011). -/
def commandsLoop (L : Locale) (R : Rec) : Nat → Token → Option (List Command × Token)
  | 0, _ => none
  | n + 1, tk => do
    let (c, tk1) ← command L R tk
    if tk1.type == .pipe then do
      let tk2 ← next L R tk1
      let tk3 ← newlines L R tk2
      let (cs, tk4) ← commandsLoop L R n tk3
      some (c :: cs, tk4)
    else some ([c], tk1)

/-- `parse_pipeline` (parser.c:1944-1977) with `pl_cond`. -/
def pipeline (L : Locale) (R : Rec) (cond : Bool) (tk : Token) : Option (Pipeline × Token) :=
  if tk.type == .bang then do
    let tk1 ← next L R tk
    let (cs, tk2) ← commandsLoop L R R.fuel tk1
    some (.mk cs true cond, tk2)
  else do
    let (cs, tk1) ← commandsLoop L R R.fuel tk
    some (.mk cs false cond, tk1)

/-- `parse_pipelines_in_and_or` (parser.c:1910-1939). -/
def pipelinesLoop (L : Locale) (R : Rec) : Nat → Bool → Token → Option (List Pipeline × Token)
  | 0, _, _ => none
  | n + 1, cond, tk => do
    let (p, tk1) ← pipeline L R cond tk
    if tk1.type == .ampamp || tk1.type == .pipepipe then do
      let tk2 ← next L R tk1
      let tk3 ← newlines L R tk2
      let (ps, tk4) ← pipelinesLoop L R n (tk1.type == .ampamp) tk3
      some (p :: ps, tk4)
    else some ([p], tk1)

/-- `parse_and_or_list` (parser.c:1893-1905). -/
def andOr (L : Locale) (R : Rec) (tk : Token) : Option (AndOr × Token) := do
  let (ps, tk1) ← pipelinesLoop L R R.fuel false tk
  some (.mk ps (tk1.type == .amp), tk1)

/-- The separator after a list (parser.c:1878-1884): whether one is still needed, and the next token. -/
def separator (L : Locale) (R : Rec) (tk : Token) : Option (Bool × Token) :=
  if tk.type == .amp || tk.type == .semicolon then do
    let tk1 ← next L R tk
    some (false, tk1)
  else some (true, tk)

/-- `parse_command_list` when `toeol` is false (parser.c:1814-1889). -/
def listLoop (L : Locale) (R : Rec) : Nat → Bool → Token → Option (List AndOr × Token)
  | 0, _, _ => none
  | n + 1, need, tk => do
    let tk1 ← newlines L R tk
    if (need && tk.type != .newline) || tk1.type == .eoi || isClosing tk1.type then some ([], tk1)
    else do
      let (a, tk2) ← andOr L R tk1
      let (need, tk3) ← separator L R tk2
      let (l, tk4) ← listLoop L R n need tk3
      some (a :: l, tk4)

/-- `parse_compound_list` (parser.c:1892-1895). -/
def list (L : Locale) (R : Rec) (tk : Token) : Option (List AndOr × Token) := listLoop L R R.fuel false tk

/-- `parse_command_list` when `toeol` is true (parser.c:1814-1889).  The input is read by lines, so a newline
token is the end of what has been read. -/
def lineLoop (L : Locale) (R : Rec) : Nat → Bool → Token → Option (List AndOr × Src)
  | 0, _, _ => none
  | n + 1, need, tk =>
    if tk.type == .newline || tk.type == .eoi then some ([], tk.src)
    else if need then none
    else do
      let (a, tk1) ← andOr L R tk
      let (need, tk2) ← separator L R tk1
      let (l, st) ← lineLoop L R n need tk2
      some (a :: l, st)

/-! ## The whole parser -/

/-- One level of nesting. -/
def step (L : Locale) (R : Rec) : Rec where
  fuel := R.fuel + 1
  list := list L R
  special := special L R
  brace := brace L R
  compound := compound L R
  ors := orsLoop L R R.fuel

/-- The parser for nested constructs up to a depth. -/
def parser (L : Locale) : Nat → Rec
  | 0 => ⟨0, fun _ => none, fun _ _ => none, fun _ => none, fun _ => none, fun _ => none⟩
  | n + 1 => step L (parser L n)

/-- `read_and_parse` (parser.c:739-797): parses one line of input, or as many as the commands in it take, and gives the
commands and the input that has not been read.  The nesting of commands and the rounds of loops are limited to `n`. -/
def parseLineN (L : Locale) (n : Nat) (s : List Char) : Option (List AndOr × List Char) := do
  let tk ← nextToken L (parser L n).special ⟨[], s⟩
  let (l, st) ← lineLoop L (parser L n) n false tk
  some (l, st.rest)

/-- `read_and_parse` (parser.c:739-797).  Nothing can be nested deeper than the text is long. -/
def parseLine (L : Locale) (s : List Char) : Option (List AndOr × List Char) := parseLineN L (s.length + 3) s

end Yash.Parser
