import Verif.Complete.Model
import Verif.Expand.Four
import Verif.Syntax.Lex
/-!
# Model of finding out what is completed

The part of `lineedit/compparse.c` for simple commands of words without expansions: where the word on which the cursor is begins,
what is open at its end, what it stands for so far, and the words before it.  `none` stands for all lines for which the code
goes on with a part that is not modelled.
-/
set_option autoImplicit false

namespace Yash.Complete

open Expand (Locale Env expandSingle expandMultiple unescape)
open Syntax (isTokenDelimiter isDigitChar isNameChar)

/-- What `cparse_word` comes to. -/
inductive Scanned where
  /-- The word is complete; the text that follows it. -/
  | word (text rest : List Char)
  /-- The text ends in the word. -/
  | last (text : List Char) (quote : Quote)
  /-- There is an expansion. -/
  | beyond
  deriving DecidableEq, Repr

/-- The loop of `cparse_word` with `testfunc` being `is_token_delimiter_char` and `tilde` not being `TT_MULTI`
(lineedit/compparse.c:635-722).  `sq` says that the position is in single quotes: the code jumps to the closing quote with
`wcschr` instead.  `$` and backquotes are beyond the model. -/
def scanWord (L : Locale) (indq sq : Bool) (acc : List Char) : List Char → Scanned
  | [] => if sq then .last (acc ++ ['\'']) .single else .last acc (if indq then .double else .normal)
  | c :: r =>
    if sq then scanWord L indq (c != '\'') (acc ++ [c]) r
    else if !indq && isTokenDelimiter L c then .word acc (c :: r)
    else if c = '\\' then
      match r with
      | [] => .last (acc ++ ['\\']) (if indq then .doubleEscaped else .normalEscaped)
      | d :: r => scanWord L indq false (acc ++ ['\\', d]) r
    else if c = '$' || c = '`' then .beyond
    else if c = '\'' && !indq then scanWord L indq true (acc ++ [c]) r
    else if c = '"' then scanWord L (!indq) false (acc ++ [c]) r
    else scanWord L indq false (acc ++ [c]) r

/-- `has_token` (lineedit/compparse.c:269-273). -/
def hasToken (L : Locale) (r token : List Char) : Bool :=
  token.isPrefixOf r &&
    match r.drop token.length with
    | [] => false
    | c :: _ => isTokenDelimiter L c

/-- The keywords of `cparse_command` (lineedit/compparse.c:234-260). -/
def keywords (posix : Bool) : List (List Char) :=
  ["{", "!", "if", "do", "then", "else", "elif", "while", "until", "}", "fi", "done", "esac", "for", "case"].map String.toList ++
    if posix then [] else ["function".toList]

/-- Whether `ctryparse_redirect` finds a redirection (lineedit/compparse.c:402-440). -/
def atRedirect (r : List Char) : Bool :=
  match r.dropWhile isDigitChar with
  | c :: _ => c = '<' || c = '>'
  | [] => false

/-- Whether `ctryparse_assignment` finds an assignment (lineedit/compparse.c:350-356). -/
def atAssignment (L : Locale) (r : List Char) : Bool :=
  match r with
  | [] => false
  | c :: _ =>
    if c = '=' || isDigitChar c then false
    else
      match r.dropWhile (isNameChar L) with
      | d :: _ => d = '='
      | [] => false

/-- What the parser saves in the context (lineedit/compparse.c:176-179). -/
structure Found where
  quote : Quote
  type : CtxtType
  pwords : List (List Char)
  pattern : List Char
  srcindex : Nat
  deriving DecidableEq, Repr

/-- The characters at which `cparse_simple_command` ends (lineedit/compparse.c:301-305) and that are skipped by
`cparse_commands` and, for the parenthesis, `le_get_context` (lineedit/compparse.c:127-128, 187-192). -/
def isSeparator (c : Char) : Bool := c = '\n' || c = ';' || c = '&' || c = '|' || c = ')'

/-- The parser from a position in the line on, where the text up to the cursor is `len` characters long.  `none` is the loop of
`cparse_commands` (lineedit/compparse.c:183-198) with that of `le_get_context` (127-128) and the beginning of
`cparse_simple_command` (278-296), `some pwords` that of the loop of `cparse_simple_command` (300-326) with the redirection of
the round before.  Simplified: there are no aliases; keywords, subshells, redirections, assignments, tildes and errors in
expansions are beyond the model.  `n` bounds the steps. -/
def parseFrom {σ : Type} (E : Env σ) (len : Nat) : Nat → Option (List (List Char)) → σ → List Char → Option Found
  | 0, _, _, _ => none
  | n + 1, mode, s, r0 =>
    let r := r0.dropWhile E.locale.blank
    match mode with
    | none =>
      match r with
      | [] => parseFrom E len n (some []) s []
      | c :: r' =>
        if isSeparator c then parseFrom E len n none s r'
        else if c = '(' || (keywords E.posix).any (hasToken E.locale r) then none
        else if atRedirect r || atAssignment E.locale r then none
        else parseFrom E len n (some []) s r
    | some pwords =>
      if atRedirect r then none
      else if r.head?.any isSeparator then parseFrom E len n none s r
      else if r.head? = some '(' || r.head? = some '~' then none
      else
        match scanWord E.locale false false [] r with
        | .beyond => none
        | .last text q =>
          match expandSingle E .single .word .quotedHard [.str text] s with
          | .ok _ pattern =>
            some ⟨q, if pwords.isEmpty then .command else .argument, pwords, pattern, len - r.length⟩
          | _ => none
        | .word text rest =>
          match expandMultiple E [.str text] s with
          | .ok s ws => parseFrom E len n (some (pwords ++ ws)) s rest
          | _ => none

/-- Whether `remove_braceexpand` meets a brace (lineedit/compparse.c:1219-1231); if not, it changes nothing and returns false. -/
def meetsBrace : List Char → Bool
  | '\\' :: _ :: s => meetsBrace s
  | c :: s => c = '{' || meetsBrace s
  | [] => false

/-- `le_get_context` (lineedit/compparse.c:113-153).  Braces are beyond the model. -/
def getContext {σ : Type} (E : Env σ) (s : σ) (b : Buf) : Option (Ctxt × List (List Char)) :=
  let t := b.text.take b.index
  match parseFrom E t.length (2 * t.length + 2) none s t with
  | none => none
  | some f =>
    if E.braceexpand && meetsBrace f.pattern then none
    else some ({
      quote := f.quote
      type := f.type
      ebraced := false
      vbraced := false
      quoted := false
      src := unescape f.pattern
      srcindex := f.srcindex
      origindex := b.index
      substsrc := Fnmatch.isPathnameMatchingPattern [] f.pattern }, f.pwords)

end Yash.Complete
