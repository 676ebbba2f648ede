import Verif.Parser.Model
/-!
# Model of the functions that turn syntax trees into text (`parser.c`, lines 3345-4048)

A function that appends to the buffer takes the text in the buffer and gives the new text.  The contents of here-documents
are not printed by this model: it is for commands without here-documents.
-/
set_option autoImplicit false

namespace Yash.Parser

open Syntax
open Expand (Locale)

/-- `trim_end_of_buffer` (parser.c:4039-4045). -/
def trimEnd (b : List Char) : List Char := (b.reverse.dropWhile (· == ' ')).reverse

/-- `print_space_or_newline` (parser.c:4017-4025). -/
def spaceOrNewline (ml : Bool) (b : List Char) : List Char := b ++ [if ml then '\n' else ' ']

/-- `print_indent` (parser.c:3996-4015). -/
def printIndent (ml : Bool) (i : Nat) (b : List Char) : List Char :=
  if ml && (b.isEmpty || b.getLast? == some '\n') then b ++ List.replicate (3 * i) ' ' else b

/-- `wb_insert` of one space, if the text printed from the position starts with a parenthesis (parser.c:3891-3893). -/
def guardParen (start : Nat) (b : List Char) : List Char :=
  if (b.drop start).head? == some '(' then b.take start ++ ' ' :: b.drop start else b

/-- The operator of a redirection (parser.c:3829-3845). -/
def redirOp : FileRedir → List Char
  | .input => "<".toList
  | .output => ">".toList
  | .clobber => ">|".toList
  | .append => ">>".toList
  | .inout => "<>".toList
  | .dupin => "<&".toList
  | .dupout => ">&".toList
  | .pipe => ">>|".toList
  | .herestr => "<<<".toList

/-- `%d` of a file descriptor; the number that stands for -1 is `INT_MAX` + 1 (see `fdOf`). -/
def fdText (fd : Nat) : List Char := if fd ≤ intMax then Nat.toDigits 10 fd else "-1".toList

/-- The character that starts a modifier with a word (parser.c:3933-3936). -/
def substChar : ParamOp → List Char
  | .plus => ['+']
  | .minus => ['-']
  | .assign => ['=']
  | .error => ['?']
  | _ => []

/-- The flag in `${name/pattern/replacement}` (parser.c:3950-3958). -/
def replaceFlag (t : ParamType) : List Char :=
  if t.colon then []
  else if t.all then ['/']
  else if t.head then ['#']
  else if t.tail then ['%']
  else []

/-- The sign of a modifier that removes a matching part (parser.c:3937-3947). -/
def matchSign (t : ParamType) : List Char :=
  (if t.head then ['#'] else ['%']) ++ (if t.longest then (if t.head then ['#'] else ['%']) else [])

/-- The context of an expression in the double bracket command. -/
inductive DbContext where
  | or | and | not
deriving DecidableEq, Repr

/-- `is_keyword` of a word that is a single string (parser.c:3583-3590). -/
def isKeywordWord (w : Word) : Bool :=
  match singleString w with
  | some s => reservedWord s != .word
  | none => false

mutual

/-- `print_word` (parser.c:3876-3907). -/
def printWord (L : Locale) (ml : Bool) (i : Nat) : List WordUnit → List Char → List Char
  | [], b => b
  | u :: us, b => printWord L ml i us (printUnit L ml i u b)

/-- `print_word` for one word unit (parser.c:3880-3903). -/
def printUnit (L : Locale) (ml : Bool) (i : Nat) : WordUnit → List Char → List Char
  | .str s, b => b ++ s
  | .param p, b => printParam L ml i p b
  | .cmdsub c, b => guardParen (b.length + 2) (printEmbed L ml (i + 1) c (b ++ "$(".toList) ++ [')'])
  | .arith w, b => printWord L ml i w (b ++ "$((".toList) ++ "))".toList

/-- `print_parameter` (parser.c:3909-3968). -/
def printParam (L : Locale) (ml : Bool) (i : Nat) : Param → List Char → List Char
  | .mk t base start stop pattern subst, b =>
    let b := printBase L ml i base (b ++ "${".toList ++ (if t.number then ['#'] else []))
    let b :=
      match start with
      | [] => b
      | _ :: _ =>
        let b := printWord L ml i start (b ++ ['['])
        match stop with
        | [] => b ++ [']']
        | _ :: _ => printWord L ml i stop (b ++ [',']) ++ [']']
    let b := b ++ (if t.colon then [':'] else [])
    let b :=
      match t.op with
      | .none => b
      | .match => printWord L ml i pattern (b ++ matchSign t)
      | .subst => printWord L ml i subst (printWord L ml i pattern (b ++ '/' :: replaceFlag t) ++ ['/'])
      | op => printWord L ml i subst (b ++ substChar op)
    b ++ ['}']

/-- The name or the nested expansion (parser.c:3915-3918). -/
def printBase (L : Locale) (ml : Bool) (i : Nat) : ParamBase → List Char → List Char
  | .name s, b => b ++ s
  | .nest u, b => printUnit L ml i u b

/-- `print_embedded_command` (parser.c:3970-3994). -/
def printEmbed (L : Locale) (ml : Bool) (i : Nat) : Embed → List Char → List Char
  | .unparsed s, b => b ++ s
  | .parsed l, b => printAndOrs L ml i true l b

/-- `print_and_or_lists` (parser.c:3473-3489). -/
def printAndOrs (L : Locale) (ml : Bool) (i : Nat) (bare : Bool) : List AndOr → List Char → List Char
  | [], b => b
  | a :: l, b =>
    let b := printAndOr L ml i a (!ml && (!l.isEmpty || !bare)) b
    printAndOrs L ml i bare l (if !l.isEmpty || !bare then spaceOrNewline ml b else b)

/-- One list with `&` or `;` (parser.c:3477-3482). -/
def printAndOr (L : Locale) (ml : Bool) (i : Nat) : AndOr → Bool → List Char → List Char
  | .mk ps async, semi, b =>
    trimEnd (printPipelines L ml i true ps b) ++ (if async then ['&'] else if semi then [';'] else [])

/-- `print_pipelines` (parser.c:3491-3510). -/
def printPipelines (L : Locale) (ml : Bool) (i : Nat) (first : Bool) : List Pipeline → List Char → List Char
  | [], b => b
  | p :: ps, b => printPipelines L ml i false ps (printPipeline L ml i first p b)

/-- One pipeline, with the operator before it (parser.c:3497-3508). -/
def printPipeline (L : Locale) (ml : Bool) (i : Nat) (first : Bool) : Pipeline → List Char → List Char
  | .mk cs neg cond, b =>
    let b := if first then b else spaceOrNewline ml (b ++ (if cond then "&&".toList else "||".toList))
    printCommands L ml i true cs (printIndent ml i b ++ (if neg then "! ".toList else []))

/-- `print_commands` (parser.c:3512-3527). -/
def printCommands (L : Locale) (ml : Bool) (i : Nat) (first : Bool) : List Command → List Char → List Char
  | [], b => b
  | c :: cs, b => printCommands L ml i false cs (printCommand L ml i c (if first then b else b ++ "| ".toList))

/-- `print_one_command` (parser.c:3529-3569) and the functions for the types of commands (parser.c:3571-3810). -/
def printCommand (L : Locale) (ml : Bool) (i : Nat) : Command → List Char → List Char
  | .simple rs as ws, b =>
    let b := printAssigns L ml i as b
    let b :=
      match as, ws with
      | [], w :: _ => if isKeywordWord w then b ++ ['\\'] else b
      | _, _ => b
    printRedirs L ml i rs (printWords L ml i ws b)
  | .group rs l, b =>
    let b := printAndOrs L ml (i + 1) false l (spaceOrNewline ml (b ++ ['{']))
    printRedirs L ml i rs (printIndent ml i b ++ "} ".toList)
  | .subshell rs l, b =>
    let b := printAndOrs L ml (i + 1) true l (b ++ ['('])
    printRedirs L ml i rs (trimEnd b ++ ") ".toList)
  | .ifs rs cs, b =>
    printRedirs L ml i rs (printIndent ml i (printClauses L ml i true cs b) ++ "fi ".toList)
  | .fors rs name ws l, b =>
    let b := b ++ "for ".toList ++ name
    let b :=
      match ws with
      | some ws => spaceOrNewline ml (printForWords L ml i ws (b ++ " in".toList) ++ (if ml then [] else [';']))
      | none => b ++ [' ']
    let b := printAndOrs L ml (i + 1) false l (spaceOrNewline ml (printIndent ml i b ++ "do".toList))
    printRedirs L ml i rs (printIndent ml i b ++ "done ".toList)
  | .whiles rs t c l, b =>
    let b := printAndOrs L ml (i + 1) false c (b ++ (if t then "while ".toList else "until ".toList))
    let b := printAndOrs L ml (i + 1) false l (spaceOrNewline ml (printIndent ml i b ++ "do".toList))
    printRedirs L ml i rs (printIndent ml i b ++ "done ".toList)
  | .cases rs w cs, b =>
    let b := spaceOrNewline ml (printWord L ml i w (b ++ "case ".toList) ++ " in".toList)
    printRedirs L ml i rs (printIndent ml i (printItems L ml (i + 1) cs b) ++ "esac ".toList)
  | .bracket rs e, b =>
    printRedirs L ml i rs (printDb L ml i .or e (b ++ "[[ ".toList) ++ "]] ".toList)
  | .funcdef _ name c, b =>
    let b := printWord L ml i name (b ++ (if isNameWord L name then [] else "function ".toList))
    printCommand L ml i c (printIndent ml i (spaceOrNewline ml (b ++ "()".toList)))

/-- The words of a simple command, each with a space after it (parser.c:3578-3594). -/
def printWords (L : Locale) (ml : Bool) (i : Nat) : List (List WordUnit) → List Char → List Char
  | [], b => b
  | w :: ws, b => printWords L ml i ws (printWord L ml i w b ++ [' '])

/-- The words of a `for` command, each with a space before it (parser.c:3666-3669). -/
def printForWords (L : Locale) (ml : Bool) (i : Nat) : List (List WordUnit) → List Char → List Char
  | [], b => b
  | w :: ws, b => printForWords L ml i ws (printWord L ml i w (b ++ [' ']))

/-- The clauses of an `if` command (parser.c:3628-3652). -/
def printClauses (L : Locale) (ml : Bool) (i : Nat) (first : Bool) : List IfClause → List Char → List Char
  | [], b => b
  | c :: cs, b => printClauses L ml i false cs (printClause L ml i first cs.isEmpty c b)

/-- One clause with its keywords (parser.c:3628-3652); a null condition is only that of `else` if the clause is the last one
and not the first one. -/
def printClause (L : Locale) (ml : Bool) (i : Nat) (first last : Bool) : IfClause → List Char → List Char
  | .cond c l, b =>
    let b := if first then b ++ "if ".toList else printIndent ml i b ++ "elif ".toList
    let b := printAndOrs L ml (i + 1) false c b
    printAndOrs L ml (i + 1) false l (spaceOrNewline ml (printIndent ml i b ++ "then".toList))
  | .els l, b =>
    if !first && last then
      printAndOrs L ml (i + 1) false l (spaceOrNewline ml (printIndent ml i b ++ "else".toList))
    else
      let b := if first then b ++ "if ".toList else printIndent ml i b ++ "elif ".toList
      printAndOrs L ml (i + 1) false l (spaceOrNewline ml (printIndent ml i b ++ "then".toList))

/-- `print_caseitems` (parser.c:3724-3754). -/
def printItems (L : Locale) (ml : Bool) (i : Nat) : List CaseItem → List Char → List Char
  | [], b => b
  | c :: cs, b => printItems L ml i cs (printItem L ml i c b)

/-- One case item (parser.c:3728-3750). -/
def printItem (L : Locale) (ml : Bool) (i : Nat) : CaseItem → List Char → List Char
  | .mk ps l, b =>
    let b := spaceOrNewline ml (printPatterns L ml i true ps (printIndent ml i b ++ ['(']) ++ [')'])
    let b := if l.isEmpty then b else spaceOrNewline ml (printAndOrs L ml (i + 1) true l b)
    spaceOrNewline ml (printIndent ml (i + 1) b ++ ";;".toList)

/-- The patterns of a case item (parser.c:3730-3736). -/
def printPatterns (L : Locale) (ml : Bool) (i : Nat) (first : Bool) : List (List WordUnit) → List Char → List Char
  | [], b => b
  | w :: ws, b => printPatterns L ml i false ws (printWord L ml i w (if first then b else b ++ " | ".toList))

/-- `print_double_bracket_expression` (parser.c:3768-3810). -/
def printDb (L : Locale) (ml : Bool) (i : Nat) (context : DbContext) : DbExp → List Char → List Char
  | .or l r, b =>
    let b := if context == .or then b else b ++ "( ".toList
    let b := printDb L ml i .or r (printDb L ml i .or l b ++ "|| ".toList)
    if context == .or then b else b ++ ") ".toList
  | .and l r, b =>
    let b := if context == .not then b ++ "( ".toList else b
    let b := printDb L ml i .and r (printDb L ml i .and l b ++ "&& ".toList)
    if context == .not then b ++ ") ".toList else b
  | .not e, b => printDb L ml i .not e (b ++ "! ".toList)
  | .unary op w, b => printWord L ml i w (b ++ op ++ [' ']) ++ [' ']
  | .binary op l r, b => printWord L ml i r (printWord L ml i l b ++ ' ' :: op ++ [' ']) ++ [' ']
  | .string w, b => printWord L ml i w b ++ [' ']

/-- `print_assignments` (parser.c:3812-3838). -/
def printAssigns (L : Locale) (ml : Bool) (i : Nat) : List Assign → List Char → List Char
  | [], b => b
  | a :: as, b => printAssigns L ml i as (printAssign L ml i a b ++ [' '])

/-- One assignment (parser.c:3816-3833). -/
def printAssign (L : Locale) (ml : Bool) (i : Nat) : Assign → List Char → List Char
  | .scalar name w, b => printWord L ml i w (b ++ name ++ ['='])
  | .array name ws, b => trimEnd (printWords L ml i ws (b ++ name ++ "=(".toList)) ++ [')']

/-- `print_redirections` (parser.c:3820-3874). -/
def printRedirs (L : Locale) (ml : Bool) (i : Nat) : List Redir → List Char → List Char
  | [], b => b
  | r :: rs, b => printRedirs L ml i rs (printRedir L ml i r b ++ [' '])

/-- One redirection (parser.c:3825-3869). -/
def printRedir (L : Locale) (ml : Bool) (i : Nat) : Redir → List Char → List Char
  | .file t fd w, b => printWord L ml i w (b ++ fdText fd ++ redirOp t)
  | .heredoc tabs fd delim _, b =>
    b ++ fdText fd ++ (if tabs then "<<-".toList else "<<".toList) ++ (if delim.head? == some '-' then [' '] else []) ++ delim
  | .proc isIn fd c, b => printEmbed L ml (i + 1) c (b ++ fdText fd ++ (if isIn then "<(".toList else ">(".toList)) ++ [')']

end

/-- `pipelines_to_wcs` (parser.c:3436-3449): the name of a job. -/
def pipelinesToWcs (L : Locale) (ps : List Pipeline) : List Char := trimEnd (printPipelines L false 0 true ps [])

/-- `command_to_wcs` (parser.c:3454-3471): a function as printed by `typeset -fp` if `ml` is true. -/
def commandToWcs (L : Locale) (c : Command) (ml : Bool) : List Char :=
  if ml then spaceOrNewline ml (trimEnd (printCommand L ml 0 c [])) else trimEnd (printCommand L ml 0 c [])

end Yash.Parser
