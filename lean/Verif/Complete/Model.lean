import Verif.Expand.Types
/-!
# Model of command line completion

The part of `lineedit/complete.c` that changes the edit line: how the candidates that were found are inserted, how the user goes
through them, and how characters are quoted.  Finding out what the cursor is on (`le_get_context`) and generating candidates are
parameters here; `Complete.Parse` models the former for words without expansions.

Strings are lists of characters without the null character.  An assertion that fails is `none`.
-/
set_option autoImplicit false

namespace Yash.Complete

open Expand (Locale)

/-- `le_quote_T` (lineedit/complete.h:62-69). -/
inductive Quote where
  | none
  | normal
  | normalEscaped
  | single
  | double
  | doubleEscaped
  deriving DecidableEq, Repr

/-- `le_contexttype_T` without the flags (lineedit/complete.h:70-84). -/
inductive CtxtType where
  | normal
  | command
  | argument
  | tilde
  | var
  | arith
  | assign
  | redir
  | redirFd
  | forIn
  | forDo
  | caseIn
  | function
  deriving DecidableEq, Repr

/-- `le_context_T` (lineedit/complete.h:90-100).  The flags of the type are separate fields.  Left out: `pwordc`, `pwords` and
`pattern`, which only candidate generation uses. -/
structure Ctxt where
  quote : Quote
  type : CtxtType
  /-- `CTXT_EBRACED` -/
  ebraced : Bool
  /-- `CTXT_VBRACED` -/
  vbraced : Bool
  /-- `CTXT_QUOTED` -/
  quoted : Bool
  src : List Char
  srcindex : Nat
  origindex : Nat
  substsrc : Bool
  deriving DecidableEq, Repr

/-- `le_candidate_T` (lineedit/complete.h:46-61).  Left out: the type, the value without the ignored prefix and all that is only
displayed. -/
structure Cand where
  /-- `origvalue` -/
  value : List Char
  terminate : Bool
  deriving DecidableEq, Repr

/-- `le_main_buffer` and `le_main_index`. -/
structure Buf where
  text : List Char
  index : Nat
  deriving DecidableEq, Repr

/-- `ctxt`, `le_candidates` and `le_selected_candidate_index` (lineedit/complete.c:163-173) while there are candidates, that is,
while `le_candidates.contents` is not null. -/
structure Active where
  ctxt : Ctxt
  cands : List Cand
  selected : Nat
  deriving DecidableEq, Repr

structure State where
  buf : Buf
  active : Option Active
  deriving DecidableEq, Repr

/-! ## Quoting -/

/-- `quotechars` in `quote` (lineedit/complete.c:1350-1351). -/
def quotechars (c : Ctxt) : List Char :=
  if c.type = .command ∧ c.ebraced = false ∧ c.vbraced = false ∧ c.quoted = false then "=|&;<>()$`\\\"'*?[]#~{}".toList
  else "|&;<>()$`\\\"'*?[]#~{}".toList

/-- The loop of `quote` for `QUOTE_NORMAL` (lineedit/complete.c:1359-1367). -/
def quoteNormal (L : Locale) (qc : List Char) : List Char → List Char
  | [] => []
  | c :: s =>
    (if c = '\n' then ['\'', '\n', '\'']
     else if qc.contains c || L.space c then ['\\', c]
     else [c]) ++ quoteNormal L qc s

/-- The loop of `quote` for `QUOTE_SINGLE` (lineedit/complete.c:1370-1375). -/
def quoteSingle : List Char → List Char
  | [] => []
  | c :: s => (if c ≠ '\'' then [c] else "'\\''".toList) ++ quoteSingle s

/-- The loop of `quote` for `QUOTE_DOUBLE` (lineedit/complete.c:1379-1383); `CHARS_ESCAPABLE` is in parser.h:289. -/
def quoteDouble : List Char → List Char
  | [] => []
  | c :: s => (if "$`\"\\".toList.contains c then ['\\', c] else [c]) ++ quoteDouble s

/-- `quote` (lineedit/complete.c:1347-1387); the result is what is appended to the buffer. -/
def quote (L : Locale) (c : Ctxt) (s : List Char) : Quote → List Char
  | .none => s
  | .normal => quoteNormal L (quotechars c) s
  | .normalEscaped => quoteNormal L (quotechars c) s
  | .single => quoteSingle s
  | .double => quoteDouble s
  | .doubleEscaped => quoteDouble s

/-! ## Inserting candidates -/

/-- The inner loop of `get_common_prefix_length` (lineedit/complete.c:1152-1154) from `j` on; the first two arguments are what is
left of the values at `j`.  `value2[j]` is the null character where the second value ends, which differs from all characters
of the first. -/
def prefixScan : List Char → List Char → Nat → Nat → Nat
  | [], _, _, cpl => cpl
  | c :: value, value2, j, cpl =>
    if j < cpl then
      if value2.head? ≠ some c then j
      else prefixScan value value2.tail (j + 1) cpl
    else cpl

/-- The outer loop of `get_common_prefix_length` (lineedit/complete.c:1149-1155). -/
def prefixLoop (value : List Char) : List Cand → Nat → Nat
  | [], cpl => cpl
  | c :: cs, cpl => prefixLoop value cs (prefixScan value c.value 0 cpl)

/-- `get_common_prefix_length` (lineedit/complete.c:1139-1168).  The result is not kept in `common_prefix_length`: the candidates
do not change before `le_complete` forgets it. -/
def commonPrefixLength : List Cand → Option Nat
  | [] => none
  | c :: cs => some (prefixLoop c.value cs c.value.length)

/-- `wb_replace_force`, `wb_ninsert_force` and `wb_remove` on the main buffer (strbuf.c), for a range in the buffer. -/
def replace (t : List Char) (i n : Nat) (s : List Char) : List Char := t.take i ++ s ++ t.drop (i + n)

/-- `insert_to_main_buffer` (lineedit/complete.c:1299-1303). -/
def insertChar (c : Char) (b : Buf) : Buf := ⟨replace b.text b.index 0 [c], b.index + 1⟩

/-- What `update_main_buffer` removes and how it quotes (lineedit/complete.c:1182-1207): `srclen`, `substindex` and
`quotetype`. -/
def updatePlace (subst : Bool) (c : Ctxt) (b : Buf) : Option (Nat × Nat × Quote) :=
  if subst then some (0, c.srcindex, .normal)
  else
    match c.quote with
    | .normalEscaped | .doubleEscaped =>
      if c.origindex > 0 ∧ b.text[c.origindex - 1]? = some '\\' then some (c.src.length, c.origindex - 1, c.quote) else none
    | q => some (c.src.length, c.origindex, q)

/-- The quoted text that `update_main_buffer` inserts (lineedit/complete.c:1209-1235). -/
def updateText (L : Locale) (a : Active) (srclen : Nat) (q : Quote) : Option (List Char) :=
  match a.cands[a.selected]? with
  | none =>
    match commonPrefixLength a.cands, a.cands with
    | some cpl, c :: _ => if srclen ≤ cpl then some (quote L a.ctxt ((c.value.drop srclen).take (cpl - srclen)) q) else none
    | _, _ => none
  | some c =>
    if srclen ≤ c.value.length then
      if c.value = [] ∧ q = .normal then some ['"', '"'] else some (quote L a.ctxt (c.value.drop srclen) q)
    else none

/-- The closing quote (lineedit/complete.c:1251-1263). -/
def closeQuote (q : Quote) (b : Buf) : Buf :=
  match q with
  | .none | .normal | .normalEscaped => b
  | .single => insertChar '\'' b
  | .double | .doubleEscaped => insertChar '"' b

/-- What ends the word (lineedit/complete.c:1268-1294). -/
def finishWord (c : Ctxt) (b : Buf) : Buf :=
  if c.vbraced then insertChar '}' b
  else if c.ebraced then insertChar ',' b
  else
    let b := if c.quoted then insertChar '"' b else b
    if c.type = .tilde then insertChar '/' b else insertChar ' ' b

/-- `update_main_buffer` (lineedit/complete.c:1180-1295). -/
def updateMainBuffer (L : Locale) (subst finish : Bool) (a : Active) (b : Buf) : Option Buf :=
  match updatePlace subst a.ctxt b with
  | none => none
  | some (srclen, substindex, q) =>
    match updateText L a srclen q with
    | none => none
    | some quoted =>
      if substindex ≤ b.index then
        let b' : Buf := ⟨replace b.text substindex (b.index - substindex) quoted, substindex + quoted.length⟩
        match a.cands[a.selected]? with
        | none => some b'
        | some c =>
          if c.terminate = false then some b'
          else if finish = false then some (closeQuote q b')
          else some (finishWord a.ctxt (closeQuote q b'))
      else none

/-- `need_subst` (lineedit/complete.c:1309-1317). -/
def needSubst (c : Ctxt) (cands : List Cand) : Bool := cands.any fun cand => !c.src.isPrefixOf cand.value

/-- The text of `substitute_source_word_all` (lineedit/complete.c:1331-1336). -/
def allText (L : Locale) (c : Ctxt) : List Cand → List Char
  | [] => []
  | cand :: cands => quote L c cand.value .normal ++ [' '] ++ allText L c cands

/-- `substitute_source_word_all` (lineedit/complete.c:1321-1340). -/
def substituteAll (L : Locale) (c : Ctxt) (cands : List Cand) (b : Buf) : Buf :=
  let t := replace b.text c.srcindex (b.index - c.srcindex) []
  ⟨replace t c.srcindex 0 (allText L c cands), c.srcindex + (allText L c cands).length⟩

/-! ## Commands -/

/-- What `le_get_context`, `execute_completion_function` and `sort_candidates` find for the line. -/
abbrev Finder := Buf → Ctxt × List Cand

/-- `lecr_normal` (lineedit/complete.c:236-254). -/
def lecrNormal (L : Locale) (c : Ctxt) (cands : List Cand) (b : Buf) : Option State :=
  if cands = [] then some ⟨b, some ⟨c, cands, 0⟩⟩
  else if c.substsrc || needSubst c cands then some ⟨substituteAll L c cands b, none⟩
  else if cands.length = 1 then
    match updateMainBuffer L false true ⟨c, cands, 0⟩ b with
    | none => none
    | some b => some ⟨b, none⟩
  else
    match updateMainBuffer L false false ⟨c, cands, cands.length⟩ b with
    | none => none
    | some b => some ⟨b, some ⟨c, cands, cands.length⟩⟩

/-- `lecr_substitute_all_candidates` (lineedit/complete.c:257-266). -/
def lecrAll (L : Locale) (c : Ctxt) (cands : List Cand) (b : Buf) : Option State :=
  if cands = [] then some ⟨b, none⟩ else some ⟨substituteAll L c cands b, none⟩

/-- `lecr_longest_common_prefix` (lineedit/complete.c:269-285). -/
def lecrMax (L : Locale) (c : Ctxt) (cands : List Cand) (b : Buf) : Option State :=
  if cands = [] then some ⟨b, none⟩
  else
    let subst := c.substsrc || needSubst c cands
    let result :=
      if cands.length > 1 then updateMainBuffer L subst false ⟨c, cands, cands.length⟩ b
      else updateMainBuffer L subst true ⟨c, cands, 0⟩ b
    match result with
    | none => none
    | some b => some ⟨b, none⟩

/-- `le_complete` (lineedit/complete.c:184-228); the candidates of before are forgotten. -/
def complete (find : Finder) (lecr : Ctxt → List Cand → Buf → Option State) (s : State) : Option State :=
  lecr (find s.buf).1 (find s.buf).2 s.buf

/-- `select_candidate_by_offset` (lineedit/complete.c:313-328): the new index of `len` candidates. -/
def selectByOffset (len index : Nat) (offset : Int) : Nat :=
  if 0 ≤ offset then (index + offset.toNat % (len + 1)) % (len + 1)
  else
    let o := (-offset).toNat % (len + 1)
    if o ≤ index then index - o else index + (len - o + 1)

/-- `select_candidate` (lineedit/complete.c:293-304); `selector` is given the number of candidates and the index. -/
def select (L : Locale) (find : Finder) (selector : Nat → Nat → Nat) (s : State) : Option State :=
  match s.active with
  | none => complete find (lecrNormal L) s
  | some a =>
    if a.cands = [] then some s
    else
      let a' := { a with selected := selector a.cands.length a.selected }
      match updateMainBuffer L false false a' s.buf with
      | none => none
      | some b => some ⟨b, some a'⟩

/-- `le_complete_select_candidate` (lineedit/complete.c:309-312). -/
def selectCandidate (L : Locale) (find : Finder) (offset : Int) (s : State) : Option State :=
  select L find (fun len index => selectByOffset len index offset) s

/-- `le_complete_fix_candidate` (lineedit/complete.c:350-380). -/
def fixCandidate (L : Locale) (find : Finder) (index : Nat) (s : State) : Option State :=
  let a := match s.active with
    | some a => a
    | none => ⟨(find s.buf).1, (find s.buf).2, (find s.buf).2.length⟩
  match index with
  | 0 => some ⟨s.buf, some a⟩
  | i + 1 =>
    match a.cands[i]? with
    | none => some ⟨s.buf, some a⟩
    | some c =>
      match updateMainBuffer L (a.ctxt.substsrc || !a.ctxt.src.isPrefixOf c.value) true { a with selected := i } s.buf with
      | none => none
      | some b => some ⟨b, none⟩

end Yash.Complete
