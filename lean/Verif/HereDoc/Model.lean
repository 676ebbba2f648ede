import Verif.Parser.Model
import Verif.Expand.Four
/-!
# Model of here-documents (`parser.c`, lines 1725-1747 and 3147-3336, and `redir.c`, lines 750-768)

All of the input has been read (see `Verif.Syntax.Lex`).  `none` is a syntax error, which makes the whole parse fail.
Line numbers and the texts of messages are left out.
-/
set_option autoImplicit false

namespace Yash.HereDoc

open Syntax
open Expand (Locale)

/-- What `parse_here_document_tag` leaves for later (parser.c:2307-2319): whether the operator is `<<-`, and
`rd_hereend`, the text of the word after the operator. -/
structure Pending where
  removeTabs : Bool
  delim : List Char
deriving DecidableEq, Repr

/-- Moves past leading tabs (parser.c:3243-3245). -/
def skipTabs : Src → Src
  | ⟨b, '\t' :: r⟩ => skipTabs ⟨'\t' :: b, r⟩
  | st => st
termination_by st => st.rest.length

/-- `matchwcsprefix` (strbuf.c): what follows the prefix. -/
def matchPrefix : List Char → List Char → Option (List Char)
  | s, [] => some s
  | [], _ :: _ => none
  | c :: s, d :: p => if c == d then matchPrefix s p else none

/-- `is_end_of_heredoc_contents` (parser.c:3234-3261): whether the line is the delimiter, and the new position. -/
def isEnd (eoc : List Char) (skiptab : Bool) (st : Src) : Bool × Src :=
  match st.rest with
  | [] => (false, st)
  | _ :: _ =>
    let st := if skiptab then skipTabs st else st
    match matchPrefix st.rest eoc with
    | some [] => (true, ⟨eoc.reverse ++ st.before, []⟩)
    | some ('\n' :: r) => (true, ⟨'\n' :: eoc.reverse ++ st.before, r⟩)
    | _ => (false, st)

/-- The line with its newline, and what follows it (parser.c:3180-3183); `none` if there is no newline. -/
def splitLine : List Char → Option (List Char × List Char)
  | [] => none
  | '\n' :: r => some (['\n'], r)
  | c :: r =>
    match splitLine r with
    | none => none
    | some (l, r) => some (c :: l, r)

/-- The loop in `read_heredoc_contents_without_expansion` (parser.c:3179-3197).  Every round makes the text shorter; the
bound is the length of the text. -/
def quotedLoop (eoc : List Char) (skiptab : Bool) : Nat → Src → Option (List Char × Src)
  | 0, _ => none
  | n + 1, st =>
    match isEnd eoc skiptab st with
    | (true, st) => some ([], st)
    | (false, st) =>
      match splitLine st.rest with
      | none => none
      | some (l, r) =>
        match quotedLoop eoc skiptab n ⟨l.reverse ++ st.before, r⟩ with
        | none => none
        | some (s, st) => some (l ++ s, st)

/-- `read_heredoc_contents_without_expansion` (parser.c:3166-3206). -/
def readQuoted (d : Pending) (st : Src) : Option (Word × Src) :=
  match Expand.unquote d.delim with
  | none => none
  | some eoc =>
    match quotedLoop eoc d.removeTabs (st.rest.length + 1) st with
    | none => none
    | some (s, st) => some ([.str (Expand.escape (some ['\\']) s)], st)

/-- `parse_string_without_quotes` (parser.c:3288-3336).  `acc` is the text from `startindex`. -/
def stringLoop (special : Special) (backquote stop : Bool) : Nat → List Char → Src → Option (Word × Src)
  | 0, _, _ => none
  | n + 1, acc, ⟨b, r⟩ =>
    match lineCont r with
    | [] => some (stringUnit acc, ⟨b, []⟩)
    | c :: r =>
      if c == '\\' then
        match r with
        | [] => stringLoop special backquote stop n (acc ++ ['\\']) ⟨'\\' :: b, []⟩
        | d :: r => stringLoop special backquote stop n (acc ++ ['\\', d]) ⟨d :: '\\' :: b, r⟩
      else if c == '\n' && stop then some (stringUnit (acc ++ ['\n']), ⟨'\n' :: b, r⟩)
      else if c == '$' || (c == '`' && backquote) then
        match special true ⟨b, c :: r⟩ with
        | none => none
        | some (some u, st) =>
          match stringLoop special backquote stop n [] st with
          | none => none
          | some (w, st) => some (stringUnit acc ++ u :: w, st)
        | some (none, ⟨b, []⟩) => some (stringUnit acc, ⟨b, []⟩)
        | some (none, ⟨b, d :: r⟩) =>
          match stringLoop special backquote stop n [d] ⟨d :: b, r⟩ with
          | none => none
          | some (w, st) => some (stringUnit acc ++ w, st)
      else stringLoop special backquote stop n (acc ++ [c]) ⟨c :: b, r⟩

/-- The loop in `read_heredoc_contents_with_expansion` (parser.c:3216-3225). -/
def expandingLoop (special : Special) (eoc : List Char) (skiptab : Bool) : Nat → Src → Option (Word × Src)
  | 0, _ => none
  | n + 1, st =>
    match isEnd eoc skiptab st with
    | (true, st) => some ([], st)
    | (false, st) =>
      match stringLoop special true true (st.rest.length + 1) [] st with
      | none => none
      | some (w, st') =>
        if st'.before.length == st.before.length || st'.before.head? != some '\n' then none
        else
          match expandingLoop special eoc skiptab n st' with
          | none => none
          | some (w', st) => some (w ++ w', st)

/-- `read_heredoc_contents` (parser.c:3150-3163).  Nested constructs in the contents are parsed to any depth that the text
can have. -/
def readContents (L : Locale) (d : Pending) (st : Src) : Option (Word × Src) :=
  if d.delim.contains '\n' then none
  else if d.delim.any (fun c => c == '"' || c == '\'' || c == '\\') then readQuoted d st
  else expandingLoop (Parser.parser L (st.rest.length + 3)).special d.delim d.removeTabs (st.rest.length + 1) st

/-- The part of `next_line` that reads here-documents (parser.c:1735-1738): the contents in the order of the operators. -/
def readPending (L : Locale) : List Pending → Src → Option (List Word × Src)
  | [], st => some ([], st)
  | d :: ds, st =>
    match readContents L d st with
    | none => none
    | some (w, st) =>
      match readPending L ds st with
      | none => none
      | some (ws, st) => some (w :: ws, st)

/-- `next_line` (parser.c:1729-1744): past the newline and the here-documents. -/
def nextLine (L : Locale) (ds : List Pending) : Src → Option (List Word × Src)
  | ⟨b, '\n' :: r⟩ => readPending L ds ⟨'\n' :: b, r⟩
  | _ => none

/-- The text that `open_heredocument` passes to the command (redir.c:754-768).  Left out: the conversion to bytes, and the
pipe or the temporary file. -/
def openHeredocument {σ : Type} (E : Expand.Env σ) (contents : Word) : Expand.M σ (List Char) :=
  Expand.expandSingle E .none .indq .none contents

end Yash.HereDoc
