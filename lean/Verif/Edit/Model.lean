import Verif.Edit.Words
/-!
# Model of line editing (`lineedit/editing.c`)

The state of the editor and the commands that change it.  `none` is a failed assertion, an access out of the bounds of an array
or an endless loop.  Left out: what is shown, completion, searching (except for the beginning of a line), `vi-edit-and-accept`,
`vi-exec-alias`, `expect-verbatim`, and that memory is limited.  Lines contain no null characters, so that comparing with
`wcsncmp` up to a length and finding the null character there is equality.
-/
set_option autoImplicit false

namespace Yash.Edit

/-- `le_mode_id_T` without the modes for searching. -/
inductive Mode where
  | viInsert
  | viCommand
  | emacs
  | charExpect
deriving DecidableEq, Repr

/-- `enum motion_expect_command_T` (editing.c:107-130), bit by bit. -/
structure Mec where
  upper : Bool := false
  lower : Bool := false
  toStart : Bool := false
  toEnd : Bool := false
  copy : Bool := false
  delete : Bool := false
  insert : Bool := false
deriving DecidableEq, Repr

/-- `MEC_MOVE`. -/
def Mec.move : Mec := { toStart := true, toEnd := true }
/-- `MEC_KILL`. -/
def Mec.kill : Mec := { copy := true, delete := true }
/-- `MEC_CHANGE`. -/
def Mec.change : Mec := { delete := true, insert := true }
/-- `MEC_COPYCHANGE`. -/
def Mec.copyChange : Mec := { copy := true, delete := true, insert := true }

/-- `find_char`, `find_char_rev`, `till_char`, `till_char_rev` and `vi_replace_char`, which take a character. -/
inductive CharCmd where
  | findChar
  | findCharRev
  | tillChar
  | tillCharRev
  | viReplaceChar
deriving DecidableEq, Repr

/-- The commands that move the cursor without expecting a character. -/
inductive Motion where
  | forwardChar
  | backwardChar
  | forward (k : WordKind)
  | endOf (k : WordKind)
  | backward (k : WordKind)
  | forwardEmacs
  | backwardEmacs
  | beginningOfLine
  | endOfLine
  | goToColumn
  | firstNonblank
deriving DecidableEq, Repr

/-- Where the cursor is left by `go_to_history` (`enum le_search_type_T`). -/
inductive CurPos where
  | keep
  | start
  | finish
deriving DecidableEq, Repr

/-- The history entry `oldest-history`, `newest-history` and `return-history` are about. -/
inductive HistoryEnd where
  | oldest
  | newest
  | ret
deriving DecidableEq, Repr

/-- The commands. -/
inductive Cmd where
  | noop
  | alert
  | selfInsert
  | insertTab
  | digit
  | bolOrDigit
  | acceptLine
  | acceptWithHash
  | acceptPrediction
  | eof
  | eofIfEmpty
  | eofOrDelete
  | setMode (m : Mode)
  | viReplace
  | expectChar
  | abortExpectChar
  | redraw
  | motion (m : Motion)
  /-- `cmd_find_char` and so on: wait for the character. -/
  | char (c : CharCmd)
  /-- `find_char` and so on, which `cmd_expect_char` makes the current command. -/
  | charFunc (c : CharCmd)
  | refind
  | refindRev
  /-- `delete-...` and `backward-delete-...`: `MEC_DELETE`, or `MEC_KILL` if there is a count. -/
  | delete (m : Motion)
  /-- Commands that are `exec_motion_expect_command(f, m)`: `kill-...`, `forward-delete-line`, `vi-substitute` and so on. -/
  | onMotion (f : Mec) (m : Motion)
  /-- Commands that are `exec_motion_expect_command_line(f)`: `kill-line`, `vi-insert-beginning` and so on. -/
  | onLine (f : Mec)
  /-- Commands that are `set_motion_expect_command(f)`: `vi-delete`, `vi-yank` and so on. -/
  | pending (f : Mec)
  | viAppend
  | putBefore
  | put
  | putLeft
  | putPop
  | undo
  | undoAll
  | cancelUndo
  | cancelUndoAll
  | redo
  | appendLastBigword
  | transposeChars
  | transposeWords
  | capitalizeWord
  | deleteHorizontalSpace
  | justOneSpace
  | history (e : HistoryEnd) (p : CurPos)
  | nextHistory (p : CurPos)
  | prevHistory (p : CurPos)
  | beginningSearch (forward : Bool)
deriving DecidableEq, Repr

/-- `struct state_T` (editing.c:133-145). -/
structure Arg where
  sign : Int := 0
  abs : Nat := 0
  multiplier : Int := 1
  motion : Mec := .move
  char : Option CharCmd := none
deriving DecidableEq, Repr

/-- `le_editstate`. -/
inductive EditState where
  | editing
  | done
  | error
deriving DecidableEq, Repr

/-- The variables of editing.c. -/
structure St where
  /-- `le_main_buffer` -/
  buf : List Char := []
  /-- `le_main_length`; `none` is `SIZE_MAX`. -/
  mainLen : Option Nat := some 0
  /-- `le_main_index` -/
  idx : Nat := 0
  /-- `main_history_entry`: `none` is `Histlist`. -/
  entry : Option Nat := none
  /-- `main_history_value` -/
  value : List Char := []
  mode : Mode
  /-- `savemode` -/
  saveMode : Mode
  /-- `state` -/
  arg : Arg := {}
  /-- `current_command` and `last_command` -/
  cur : Option (Cmd × Char) := none
  last : Option (Cmd × Char) := none
  /-- `last_edit_command` -/
  lastEdit : Option ((Cmd × Char) × Arg) := none
  /-- `last_find_command` -/
  lastFind : Option (Cmd × Char) := none
  /-- `overwrite_save_buffer` -/
  overwrite : Option (List Char) := none
  /-- `undo_history`: the cursor and the contents. -/
  undo : List (Nat × List Char) := []
  undoIndex : Nat := 0
  undoEntry : Option Nat := none
  undoSave : Nat := 0
  /-- `kill_ring` -/
  ring : List (Option (List Char)) := List.replicate 32 none
  /-- `next_kill_index` -/
  nextKill : Nat := 0
  /-- `last_put_elem`, `last_put_range_start`, `last_put_range_length` -/
  lastPut : Nat := 0
  putStart : Nat := 0
  putLen : Nat := 0
  /-- `last_success` in `cmd_put_pop` -/
  popped : Bool := false
  state : EditState := .editing
deriving DecidableEq, Repr

/-- What line editing depends on.  The history does not change while a line is edited. -/
structure Env where
  chars : Chars
  /-- `trie_probable_key`, if prediction is enabled. -/
  predict : Option (List Char → List Char)
  /-- `shopt_le_predictempty` -/
  predictEmpty : Bool
  /-- The entries, oldest first. -/
  hist : List (List Char)
  /-- `get_history_entry`: the place of the entry with the number. -/
  number : Nat → Option Nat

/-! ## The count and the active part of the line -/

/-- `COUNT_ABS_MAX` -/
def countMax : Int := 999999999

/-- `get_count` (447-464). -/
def getCount (a : Arg) (d : Int) : Int :=
  let r := if a.sign = 0 then d * a.multiplier
    else if a.sign < 0 ∧ a.abs = 0 then -a.multiplier
    else a.abs * a.sign * a.multiplier
  if r < -countMax then -countMax else if r > countMax then countMax else r

/-- `reset_state` (430-435). -/
def resetState (st : St) : St := { st with arg := {} }

/-- `reset_count` (438-443). -/
def resetCount (st : St) : St := { st with arg := { st.arg with sign := 0, abs := 0, multiplier := 1 } }

/-- `cmd_alert` (817-821). -/
def alert (st : St) : St := resetState st

/-- `active_length` (467-474). -/
def activeLength (st : St) : Nat :=
  match st.mainLen with
  | none => st.buf.length
  | some m => if m > st.buf.length then st.buf.length else if m < st.idx then st.idx else m

/-- `if (le_main_length < n) le_main_length = n;` -/
def extendMain (n : Nat) (st : St) : St :=
  match st.mainLen with
  | none => st
  | some m => if m < n then { st with mainLen := some n } else st

/-- `clear_prediction` (2563-2568). -/
def clearPrediction (st : St) : St :=
  match st.mainLen with
  | none => st
  | some m => { st with buf := if m < st.buf.length then st.buf.take m else st.buf, mainLen := none }

/-- `update_buffer_with_prediction` (2572-2589). -/
def updatePrediction (E : Env) (predict : List Char → List Char) (st : St) : St :=
  let st := clearPrediction st
  if !E.predictEmpty && activeLength st == 0 then st
  else
    let i := if st.mode = .viCommand then st.idx + 1 else st.idx
    if i < activeLength st then st
    else { st with mainLen := some st.buf.length, buf := st.buf ++ predict st.buf }

/-! ## Undo -/

/-- `save_undo_history` (501-517); the caller has made sure that `undo_index <= undo_history.length`. -/
def saveUndo (st : St) : St :=
  { st with undo := st.undo.take st.undoIndex ++ [(st.idx, st.buf.take (activeLength st))], undoEntry := st.entry }

/-- `maybe_save_undo_history` (521-561). -/
def maybeSave (st : St) : Option St :=
  if st.undo.length < st.undoIndex then none
  else
    let saved := st.undoSave
    let st := { st with undoSave := st.idx }
    let text := st.buf.take (activeLength st)
    if st.undoEntry = st.entry then
      match st.undo[st.undoIndex]? with
      | some (_, c) =>
        if text = c then some { st with undo := st.undo.set st.undoIndex (st.idx, c) }
        else some (saveUndo { st with undoIndex := st.undoIndex + 1 })
      | none => some (saveUndo st)
    else if text = st.value then some st
    else if saved ≤ st.value.length then some (saveUndo { st with undo := [(saved, st.value)], undoIndex := 1 })
    else none

/-! ## Changing the line -/

/-- `save_current_edit_command` (478-485). -/
def saveEdit (st : St) : St :=
  match st.cur with
  | some (.redo, _) => st
  | some c => if st.mode = .viInsert then st else { st with lastEdit := some (c, st.arg) }
  | none => st

/-- `add_to_kill_ring` (689-696). -/
def addToRing (s : List Char) (st : St) : St :=
  match s with
  | [] => st
  | _ :: _ => { st with ring := st.ring.set st.nextKill (some s), nextKill := (st.nextKill + 1) % 32 }

/-- `set_overwriting` (708-718). -/
def setOverwriting (overwrite : Bool) (st : St) : St :=
  { st with overwrite := if overwrite then some (st.buf.take (activeLength st)) else none }

/-- `wb_remove` (strbuf.h:440-443). -/
def removeAt (s : List Char) (i n : Nat) : List Char := s.take i ++ s.drop (i + n)

/-- `wb_insert` and `wb_ninsert` (strbuf.h:378-402). -/
def insertAt (s : List Char) (i : Nat) (t : List Char) : List Char := s.take i ++ t ++ s.drop i

/-- `restore_overwritten_buffer_contents` (730-748). -/
def restoreOverwritten (save : List Char) (start fin : Nat) (st : St) : Option St :=
  let mid := if save.length < start then start else if save.length > fin then fin else save.length
  if mid ≤ st.buf.length then
    let buf := st.buf.take start ++ (save.drop start).take (mid - start) ++ st.buf.drop mid
    some { st with buf := removeAt buf mid (fin - mid) }
  else none

/-- `to_upper_case`, `to_lower_case`, `switch_case` (782-805). -/
def caseOf (C : Chars) (f : Mec) (c : Char) : Char :=
  if f.upper && f.lower then if C.lower c then C.toUpper c else C.toLower c
  else if f.upper then C.toUpper c
  else C.toLower c

/-- The part of the line from `start` to `fin`. -/
def region (s : List Char) (start fin : Nat) : List Char := (s.drop start).take (fin - start)

/-- The deletion in `exec_motion_command` (620-628). -/
def deletePart (old new start fin : Nat) (st : St) : Option St :=
  match st.overwrite with
  | some save =>
    if old ≤ new then some { st with buf := removeAt st.buf start (fin - start), idx := start }
    else (restoreOverwritten save start fin st).map fun st => { st with idx := start }
  | none => some { st with buf := removeAt st.buf start (fin - start), idx := start }

/-- `exec_motion_command` (568-634) after the undo history is saved: the pending command is applied to the part of the line from
`start` to `fin`. -/
def applyMec (E : Env) (old new start fin : Nat) (st : St) : Option St :=
  let mec := st.arg.motion
  let st := if mec.copy then addToRing (region st.buf start fin) st else st
  let st := if mec.upper || mec.lower then
      extendMain fin { st with buf := st.buf.take start ++ (region st.buf start fin).map (caseOf E.chars mec) ++ st.buf.drop fin }
    else st
  let st := { st with idx := if mec.toStart && mec.toEnd then new else if mec.toStart then start else if mec.toEnd then fin else st.idx }
  (if mec.delete then deletePart old new start fin (clearPrediction (saveEdit st)) else some st).map fun st => resetState (if mec.insert then setOverwriting false { st with mode := .viInsert } else st)

/-- Not saving the undo history when backspace is repeated (583-588). -/
def repeatedBackspace (new : Nat) (st : St) : Bool :=
  st.arg.motion.delete && new + 1 == st.idx && (st.cur.map (·.1) == some (.delete .backwardChar)) &&
    (st.last.map (·.1) == some (.delete .backwardChar))

/-- `exec_motion_command` (568-634). -/
def execMotion (E : Env) (new : Nat) (inclusive : Bool) (st : St) : Option St :=
  if st.buf.length < st.idx ∨ st.buf.length < new then none
  else
    let start := if st.idx ≤ new then st.idx else new
    let fin := if st.idx ≤ new then new else st.idx
    let fin := if inclusive && fin < st.buf.length then fin + 1 else fin
    (if repeatedBackspace new st then some st else maybeSave st).bind (applyMec E st.idx new start fin)

/-! ## Motions -/

/-- `alert_if_last` (1075-1091). -/
def alertIfLast (st : St) : Bool :=
  if st.mode = .viCommand then
    if st.arg.motion ≠ .move then false else !(st.buf.length > 0 && st.idx < st.buf.length - 1)
  else !(st.idx < st.buf.length)

/-- The loops `while (count-- > 0 && !stop) i = f(i);`. -/
def iterate (f : Nat → Option Nat) (stop : Nat → Bool) : Nat → Nat → Option Nat
  | 0, i => some i
  | n + 1, i =>
    if stop i then some i
    else
      match f i with
      | none => none
      | some j => iterate f stop n j

/-- Where a motion goes: `some none` is an alert. -/
abbrev Target := Option (Option (Nat × Bool))

/-- `move_cursor_forward_char` (1115-1131). -/
def forwardChar (n : Nat) (st : St) : Target :=
  if alertIfLast st then some none
  else some (some (if st.buf.length - st.idx < n then st.buf.length else st.idx + n, false))

/-- `move_cursor_backward_char` (1135-1151). -/
def backwardChar (n : Nat) (st : St) : Target :=
  if st.idx = 0 then some none else some (some (if st.idx ≤ n then 0 else st.idx - n, false))

/-- `need_cw_treatment` (1484-1488). -/
def cwTreatment (C : Chars) (st : St) : Bool := st.arg.motion.insert && !isAt C.blank st.buf st.idx

/-- `move_cursor_forward_bigword`, `..._semiword`, `..._viword` (1194-1215, 1327-1348, 1460-1481). -/
def forwardWord (C : Chars) (k : WordKind) (n : Nat) (st : St) : Target :=
  if alertIfLast st then some none
  else
    let next := fun i => some (nextWord C k st.buf i)
    let stop := fun i => !(decide (i < st.buf.length))
    if !cwTreatment C st then do
      let i ← iterate next stop n st.idx
      some (some (i, false))
    else do
      let i ← iterate next stop (n - 1) st.idx
      let i ← if n > 0 && i < st.buf.length then nextEnd C k st.buf i false else some i
      some (some (i, true))

/-- `move_cursor_backward_bigword`, `..._semiword`, `..._viword` (1219-1228, 1352-1361, 1492-1501). -/
def backwardWord (C : Chars) (k : WordKind) (n : Nat) (st : St) : Target :=
  if st.idx = 0 then some none
  else do
    let i ← iterate (prevWord C k st.buf) (fun i => !(decide (i > 0))) n st.idx
    some (some (i, false))

/-- `cmd_end_of_bigword`, `..._semiword`, `..._viword` (1168-1179, 1301-1312, 1434-1445). -/
def endOfWord (C : Chars) (k : WordKind) (n : Nat) (st : St) : Target :=
  if alertIfLast st then some none
  else do
    let i ← iterate (fun i => nextEnd C k st.buf i true) (fun i => !(decide (i < st.buf.length))) n st.idx
    some (some (i, true))

/-- `move_cursor_forward_emacsword`, `move_cursor_backward_emacsword` (1621-1638). -/
def emacsForward (C : Chars) (n : Nat) (st : St) : Target := do
  let i ← iterate (fun i => some (nextEmacs C st.buf i)) (fun i => !(decide (i < st.buf.length))) n st.idx
  some (some (i, false))
def emacsBackward (C : Chars) (n : Nat) (st : St) : Target := do
  let i ← iterate (prevEmacs C st.buf) (fun i => !(decide (i > 0))) n st.idx
  some (some (i, false))

/-- The motion commands up to their calls of `exec_motion_command` (1094-1728). -/
def target (C : Chars) (m : Motion) (st : St) : Target :=
  let n := getCount st.arg 1
  match m with
  | .forwardChar => if n ≥ 0 then forwardChar n.toNat st else backwardChar (-n).toNat st
  | .backwardChar => if n ≥ 0 then backwardChar n.toNat st else forwardChar (-n).toNat st
  | .forward k => if n ≥ 0 then forwardWord C k n.toNat st else backwardWord C k (-n).toNat st
  | .backward k => if n ≥ 0 then backwardWord C k n.toNat st else forwardWord C k (-n).toNat st
  | .endOf k => endOfWord C k n.toNat st
  | .forwardEmacs => if n ≥ 0 then emacsForward C n.toNat st else emacsBackward C (-n).toNat st
  | .backwardEmacs => if n ≥ 0 then emacsBackward C n.toNat st else emacsForward C (-n).toNat st
  | .beginningOfLine => some (some (0, false))
  | .endOfLine => some (some (st.buf.length, true))
  | .goToColumn =>
    let i := getCount st.arg 0
    if i ≥ 0 then
      let i := if i > 0 then i - 1 else i
      some (some (if i.toNat > st.buf.length then st.buf.length else i.toNat, false))
    else some (some (if (-i).toNat > st.buf.length then 0 else st.buf.length - (-i).toNat, false))
  | .firstNonblank => some (some (skip C.blank st.buf 0, false))

/-- A motion command. -/
def doMotion (E : Env) (m : Motion) (st : St) : Option St :=
  match target E.chars m st with
  | none => none
  | some none => some (alert st)
  | some (some (i, inclusive)) => execMotion E i inclusive st

/-- `find_nth_occurence` (1824-1849) forward: `rest` is what follows the character at `i - 1`. -/
def findForward (c : Char) : List Char → Nat → Nat → Option Nat
  | [], _, _ => none
  | d :: r, i, n =>
    if d = c then
      if n ≤ 1 then some i else findForward c r (i + 1) (n - 1)
    else findForward c r (i + 1) n

/-- `find_nth_occurence` backward. -/
def findBackward (c : Char) (s : List Char) : Nat → Nat → Option Nat
  | 0, _ => none
  | i + 1, n =>
    if s[i]? = some c then
      if n ≤ 1 then some i else findBackward c s i (n - 1)
    else findBackward c s i n

/-- `find_nth_occurence` (1824-1849). -/
def findNth (c : Char) (n : Int) (st : St) : Option Nat :=
  if n = 0 then some st.idx
  else if c = '\x00' then none
  else if n > 0 then findForward c (st.buf.drop (st.idx + 1)) (st.idx + 1) n.toNat
  else findBackward c st.buf st.idx (-n).toNat

/-- `save_current_find_command` (489-495). -/
def saveFind (st : St) : St :=
  match st.cur with
  | some (.refind, _) | some (.refindRev, _) | some (.redo, _) => st
  | c => { st with lastFind := c }

/-- `exec_find` (1795-1820). -/
def execFind (E : Env) (c : Char) (n : Int) (till : Bool) (st : St) : Option St :=
  let st := saveFind { st with mode := st.saveMode }
  match findNth c n st with
  | none => some (alert st)
  | some i =>
    if till then
      if i ≥ st.idx then
        if i = 0 then some (alert st) else execMotion E (i - 1) (decide (i - 1 ≥ st.idx)) st
      else
        if i = st.buf.length then some (alert st) else execMotion E (i + 1) (decide (i + 1 ≥ st.idx)) st
    else execMotion E i (decide (i ≥ st.idx)) st

/-- The loop in `vi_replace_char` (2612-2615). -/
def overwriteChars (c : Char) : Nat → St → St
  | 0, st => st
  | n + 1, st =>
    if st.idx < st.buf.length then overwriteChars c n { st with buf := st.buf.set st.idx c, idx := st.idx + 1 }
    else st

/-- `vi_replace_char` (2604-2626) after its first two calls. -/
def replaceChars (c : Char) (st : St) : St :=
  if c = '\x00' then alert st
  else
    let n := getCount st.arg 1
    if n > 0 && st.idx < st.buf.length then
      let st := overwriteChars c n.toNat st
      let st := clearPrediction (extendMain st.idx st)
      resetState { st with idx := st.idx - 1 }
    else resetState st

/-- `vi_replace_char` (2604-2626). -/
def viReplaceChar (c : Char) (st : St) : St := replaceChars c { saveEdit st with mode := st.saveMode }

/-- `find_char`, `find_char_rev`, `till_char`, `till_char_rev` (1741-1792), `vi_replace_char`. -/
def charFunc (E : Env) (f : CharCmd) (c : Char) (st : St) : Option St :=
  match f with
  | .findChar => execFind E c (getCount st.arg 1) false st
  | .findCharRev => execFind E c (-getCount st.arg 1) false st
  | .tillChar => execFind E c (getCount st.arg 1) true st
  | .tillCharRev => execFind E c (-getCount st.arg 1) true st
  | .viReplaceChar => some (viReplaceChar c st)

/-- `set_char_expect_command` (700-705). -/
def expect (f : CharCmd) (st : St) : St :=
  { st with saveMode := st.mode, mode := .charExpect, arg := { st.arg with char := some f } }

/-! ## Operators -/

/-- The condition of `ALERT_AND_RETURN_IF_PENDING`. -/
def isPending (st : St) : Bool := st.arg.motion ≠ .move

/-- `exec_motion_expect_command` (655-662). -/
def execOn (E : Env) (f : Mec) (m : Motion) (st : St) : Option St :=
  if st.cur.map (·.1) ≠ some .redo ∧ isPending st then some (alert st)
  else doMotion E m { st with arg := { st.arg with motion := f } }

/-- `exec_motion_expect_command_all` (676-685). -/
def execAll (E : Env) (st : St) : Option St := do
  let i := st.idx
  let f := st.arg.motion
  let st ← doMotion E .endOfLine { st with idx := 0 }
  some (if !f.delete && !f.toStart && !f.toEnd then { st with idx := i } else st)

/-- `exec_motion_expect_command_line` (666-672). -/
def execOnLine (E : Env) (f : Mec) (st : St) : Option St :=
  if st.cur.map (·.1) ≠ some .redo ∧ isPending st then some (alert st)
  else execAll E { st with arg := { st.arg with motion := f } }

/-- `set_motion_expect_command` (638-651). -/
def setPending (E : Env) (f : Mec) (st : St) : Option St :=
  if st.arg.motion = .move then
    some { st with arg := { st.arg with multiplier := getCount st.arg 1, sign := 0, abs := 0, motion := f } }
  else if st.arg.motion = f then execAll E st
  else some (alert st)

/-! ## Putting killed text back -/

/-- `insert_killed_string` (2157-2182). -/
def insertKilled (after onLast : Bool) (i : Nat) (st : St) : Option St :=
  let st := clearPrediction st
  match st.ring[i]? with
  | none => none
  | some none => some st
  | some (some s) =>
    let st := { st with lastPut := i }
    let st := if after && st.idx < st.buf.length then { st with idx := st.idx + 1 } else st
    let offset := st.buf.length - st.idx
    let buf := insertAt st.buf st.idx (List.replicate (getCount st.arg 1).toNat s).flatten
    if buf.length < offset + 1 then none
    else
      let fin := buf.length - offset
      some (resetState { st with
        buf := buf
        putStart := st.idx
        putLen := fin - st.idx
        idx := if onLast then fin - 1 else fin })

/-- `put_killed_string` (2134-2147). -/
def putKilled (after onLast : Bool) (st : St) : Option St :=
  if isPending st then some (alert st)
  else do
    let st ← maybeSave (saveEdit st)
    let i := (st.nextKill + 31) % 32
    if st.ring[i]? = some none then some (alert st) else insertKilled after onLast i st

/-- The loop in `cmd_put_pop` (2206-2208). -/
def previousKilled (ring : List (Option (List Char))) : Nat → Nat → Option Nat
  | 0, _ => none
  | n + 1, i =>
    let i := (i + 31) % 32
    match ring[i]? with
    | none => none
    | some none => previousKilled ring n i
    | some (some _) => some i

/-- `cmd_put_pop` (2186-2216). -/
def putPop (st : St) : Option St :=
  if isPending st then some (alert st)
  else
    let last := st.last.map (·.1)
    if (last ≠ some .putLeft ∧ last ≠ some .put ∧ last ≠ some .putBefore ∧ (last ≠ some .putPop ∨ st.popped = false)) ∨
        st.ring[st.lastPut]? = some none then
      some (alert { st with popped := false })
    else do
      let st ← maybeSave (saveEdit { st with popped := true })
      let st := clearPrediction st
      let i ← previousKilled st.ring 32 st.lastPut
      if st.buf.length < st.putStart then none
      else insertKilled false false i { st with buf := removeAt st.buf st.putStart st.putLen, idx := st.putStart }

/-! ## Undo commands -/

/-- `cancel_undo` (2246-2288). -/
def cancelUndo (n : Int) (st : St) : Option St := do
  let st ← maybeSave st
  let st := clearPrediction st
  if st.undoEntry ≠ st.entry then some (alert st)
  else if (n < 0 && st.undoIndex == 0) || (!(n < 0) && st.undo.length ≤ st.undoIndex + 1) then some (alert st)
  else
    let i := if n < 0 then (if st.undoIndex < (-n).toNat then 0 else st.undoIndex - (-n).toNat)
      else if st.undo.length - st.undoIndex ≤ n.toNat then st.undo.length - 1 else st.undoIndex + n.toNat
    match st.undo[i]? with
    | none => none
    | some (j, c) => if c.length < j then none else some (resetState { st with undoIndex := i, buf := c, idx := j })

/-! ## Other commands -/

/-- `cmd_self_insert` (827-843). -/
def insertChars (c : Char) : Nat → St → St
  | 0, st => st
  | n + 1, st =>
    if st.overwrite.isSome && st.idx < st.buf.length then
      insertChars c n { st with buf := st.buf.set st.idx c, idx := st.idx + 1 }
    else insertChars c n { st with buf := insertAt st.buf st.idx [c], idx := st.idx + 1 }

/-- `cmd_self_insert` (827-843). -/
def selfInsert (c : Char) (st : St) : St :=
  if isPending st then alert st
  else if c = '\x00' then alert st
  else resetState (insertChars c (getCount st.arg 1).toNat (clearPrediction st))

/-- `cmd_digit_argument` (861-879). -/
def digit (c : Char) (st : St) : St :=
  if '0' ≤ c ∧ c ≤ '9' then
    if st.arg.abs > 99999999 then alert st
    else { st with arg := { st.arg with
      sign := if st.arg.sign = 0 then 1 else st.arg.sign
      abs := st.arg.abs * 10 + (c.toNat - '0'.toNat) } }
  else if c = '-' then { st with arg := { st.arg with sign := if st.arg.sign = 0 then -1 else -st.arg.sign } }
  else st

/-- `cmd_accept_line` (896-908) when no search is performed. -/
def acceptLine (st : St) : St :=
  if isPending st then alert st else resetState { st with state := .done }

/-- `cmd_accept_with_hash` (954-965). -/
def acceptWithHash (st : St) : St :=
  if isPending st then alert st
  else
    let st := clearPrediction st
    let buf := if st.arg.sign = 0 ∨ st.buf.head? ≠ some '#' then '#' :: st.buf else st.buf.drop 1
    acceptLine { st with buf := buf, idx := 0 }

/-- `cmd_eof` (922-929). -/
def eof (st : St) : St :=
  if isPending st then alert st else resetState { st with state := .error }

/-- `set_mode` (994-1006). -/
def setMode (m : Mode) (overwrite : Bool) (st : St) : Option St :=
  if isPending st then some (alert st)
  else do
    let st ← maybeSave st
    let st := if st.mode = .viInsert ∧ m = .viCommand then { st with idx := st.idx - 1 } else st
    some (resetState (setOverwriting overwrite { st with mode := m }))

/-- `get_next_bigword` (2817-2828) and `get_prev_bigword` in loops (2775-2793): the `n`th word, or the last one. -/
def nthWord (C : Chars) : Nat → List Char → List Char → List Char
  | 0, _, found => found
  | n + 1, s, found =>
    let s := s.dropWhile C.blank
    let w := s.takeWhile fun c => !C.blank c
    if w = [] then found else nthWord C n (s.dropWhile fun c => !C.blank c) w

/-- `cmd_vi_append_last_bigword` (2761-2815). -/
def appendLastBigword (E : Env) (st : St) : Option St :=
  if isPending st then some (alert st)
  else do
    let st ← maybeSave (saveEdit st)
    let n := getCount st.arg (-1)
    match E.hist.getLast? with
    | none => some (alert st)
    | some line =>
      let w := if n ≥ 0 then nthWord E.chars n.toNat line [] else (nthWord E.chars (-n).toNat line.reverse []).reverse
      if n = 0 ∨ w = [] then some (alert st)
      else
        let st := clearPrediction st
        let st := if st.idx < st.buf.length then { st with idx := st.idx + 1 } else st
        setMode .viInsert false { st with buf := insertAt st.buf st.idx (' ' :: w), idx := st.idx + 1 + w.length }

/-- `cmd_emacs_transpose_chars` (3064-3120). -/
def transposeChars (st : St) : Option St :=
  if isPending st || st.idx = 0 then some (alert st)
  else do
    let st ← maybeSave st
    let st := if st.arg.sign = 0 ∧ st.idx = st.buf.length ∧ st.idx ≥ 2 then { st with idx := st.idx - 1 } else st
    let n := getCount st.arg 1
    if n ≥ 0 ∧ st.buf.length - st.idx < n.toNat then some (alert { st with idx := st.buf.length })
    else if n < 0 ∧ st.idx ≤ (-n).toNat then some (alert { st with idx := 0 })
    else
      let i := if n ≥ 0 then st.idx + n.toNat else st.idx - (-n).toNat
      let old := st.idx
      match st.buf[old - 1]? with
      | none => none
      | some c =>
        let st := { st with buf := insertAt (removeAt st.buf (old - 1) 1) (i - 1) [c], idx := i }
        some (resetState (extendMain i (extendMain old st)))

/-- The words that `cmd_emacs_transpose_words` exchanges (3137-3159): `some none` is an alert.  The result is the start and
the end of both and the new position of the cursor. -/
def wordsToTranspose (C : Chars) (n : Int) (s : List Char) (i : Nat) : Option (Option (Nat × Nat × Nat × Nat × Nat)) := do
  let start ← prevEmacs C s i
  let fin := nextEmacs C s start
  if n ≥ 0 then
    let w2 := nextEmacs C s fin
    let w1 ← prevEmacs C s w2
    let rec loop : Nat → Nat → Option Nat
      | 0, e => some e
      | k + 1, e => if e = s.length then none else loop k (nextEmacs C s e)
    match loop (n.toNat - 1) w2 with
    | none => some none
    | some e => some (some (start, fin, w1, e, e))
  else
    let w ← prevEmacs C s start
    let e := nextEmacs C s w
    let rec loop' : Nat → Nat → Option (Option Nat)
      | 0, w => some (some w)
      | k + 1, w => if w = 0 then some none else
        match prevEmacs C s w with
        | none => none
        | some w => loop' k w
    match ← loop' ((-n).toNat - 1) w with
    | none => some none
    | some w => some (some (w, e, start, fin, w + (fin - start)))

/-- `cmd_emacs_transpose_words` (3124-3179). -/
def transposeWords (E : Env) (st : St) : Option St :=
  if isPending st || st.idx = 0 then some (alert st)
  else do
    let st ← maybeSave st
    let n := getCount st.arg 1
    if n = 0 then some (resetState st)
    else
      match ← wordsToTranspose E.chars n st.buf st.idx with
      | none => some (alert st)
      | some (s1, e1, s2, e2, i) =>
        if e1 ≥ s2 then some (alert st)
        else
          let buf := st.buf.take s1 ++ region st.buf s2 e2 ++ region st.buf e1 s2 ++ region st.buf s1 e1 ++ st.buf.drop e2
          some (resetState (extendMain e2 { st with buf := buf, idx := i }))

/-- The loop for a positive count in `cmd_emacs_capitalize_word` (3211-3220). -/
def capitalizeForward (C : Chars) : Nat → Nat → List Char → Nat × List Char
  | 0, i, s => (i, s)
  | n + 1, i, s =>
    let i := skip (fun c => !C.alnum c) s i
    let s := s.modify i C.toUpper
    let i := skip C.alnum s (if i < s.length then i + 1 else i)
    if i < s.length then capitalizeForward C n i s else (i, s)

/-- The loop for a negative count (3224-3228). -/
def capitalizeBackward (C : Chars) : Nat → Nat → List Char → Option (List Char)
  | 0, _, s => some s
  | n + 1, i, s =>
    match prevEmacs C s i with
    | none => none
    | some i =>
      let s := s.modify i C.toUpper
      if i > 0 then capitalizeBackward C n i s else some s

/-- `cmd_emacs_capitalize_word` (3202-3235). -/
def capitalizeWord (E : Env) (st : St) : Option St :=
  if isPending st then some (alert st)
  else do
    let st ← maybeSave st
    let n := getCount st.arg 1
    let st ← if n > 0 then
        let (i, s) := capitalizeForward E.chars n.toNat st.idx st.buf
        some { st with buf := s, idx := i }
      else if n < 0 then do
        let s ← capitalizeBackward E.chars (-n).toNat st.idx st.buf
        some { st with buf := s }
      else some st
    some (resetState (extendMain st.idx st))

/-- The start of the blanks before `i` (3273-3276). -/
def blanksBefore (C : Chars) (s : List Char) : Nat → Nat
  | 0 => 0
  | i + 1 => if isAt C.blank s i then blanksBefore C s i else i + 1

/-- `replace_horizontal_space` (3268-3295).  The addition to `le_main_length` is modulo `SIZE_MAX + 1`: if it is `SIZE_MAX`,
and the new text is longer than the old one, the result is small; if it is shorter, the result is still larger than any
line. -/
def replaceSpace (E : Env) (deleteAfter : Bool) (t : List Char) (st : St) : Option St :=
  if isPending st then some (alert st)
  else do
    let st ← maybeSave st
    let start := blanksBefore E.chars st.buf st.idx
    let fin := if deleteAfter then skip E.chars.blank st.buf st.idx else st.idx
    let st := extendMain fin st
    let i := start + t.length
    some (resetState { st with
      buf := st.buf.take start ++ t ++ st.buf.drop fin
      idx := i
      mainLen := match st.mainLen with
        | some m => some (m + i - fin)
        | none => if i > fin then some (i - fin - 1) else none })

/-- `cmd_emacs_just_one_space` (3248-3261). -/
def justOneSpace (E : Env) (st : St) : Option St :=
  let n := getCount st.arg 1
  replaceSpace E true (List.replicate (if n < 0 then 0 else if n > 1000 then 1000 else n.toNat) ' ') st

/-! ## History -/

/-- The value of an entry (3536-3537). -/
def lineOf (E : Env) : Option Nat → Option (List Char)
  | none => some []
  | some k => E.hist[k]?

/-- `go_to_history` (3523-3554). -/
def goToHistory (E : Env) (l : Option Nat) (p : CurPos) (st : St) : Option St := do
  let st ← maybeSave st
  let st := clearPrediction st
  let st ← (match (if l = st.undoEntry then st.undo[st.undoIndex]? else none) with
    | some (j, c) => if c.length < j then none else some { st with buf := c, idx := j }
    | none => do
      let buf ← lineOf E l
      some { st with
        buf := buf
        idx := match p with
          | .keep => if st.idx > buf.length then buf.length else st.idx
          | .start => 0
          | .finish => buf.length } : Option St)
  some { st with entry := l, value := st.buf, undoSave := st.idx }

/-- The entries of `oldest-history` and so on (3338-3413). -/
def endEntry (E : Env) : HistoryEnd → Option Nat
  | .oldest => some 0
  | .newest => some (E.hist.length - 1)
  | .ret => none

/-- `go_to_history_absolute` (3419-3441). -/
def historyAbsolute (E : Env) (e : HistoryEnd) (p : CurPos) (st : St) : Option St :=
  if isPending st then some (alert st)
  else if st.arg.sign = 0 then
    if E.hist = [] then some (alert st)
    else do
      let st ← goToHistory E (endEntry E e) p st
      some (resetState st)
  else
    let n := getCount st.arg 0
    if n ≤ 0 then some (alert st)
    else
      match E.number n.toNat with
      | none => some (alert st)
      | some k => do
        let st ← goToHistory E (some k) p st
        some (resetState st)

/-- `l->next` -/
def nextEntry (E : Env) : Option Nat → Option Nat
  | none => if E.hist = [] then none else some 0
  | some k => if k + 1 < E.hist.length then some (k + 1) else none

/-- `l->prev` -/
def prevEntry (E : Env) : Option Nat → Option Nat
  | none => if E.hist = [] then none else some (E.hist.length - 1)
  | some 0 => none
  | some (k + 1) => some k

/-- The loops in `go_to_history_relative` (3496-3508): `none` is an alert. -/
def forwardEntries (E : Env) : Nat → Option Nat → Option (Option Nat)
  | 0, l => some l
  | n + 1, l => if l = none then none else forwardEntries E n (nextEntry E l)
def backwardEntries (E : Env) : Nat → Option Nat → Option (Option Nat)
  | 0, l => some l
  | n + 1, l => if prevEntry E l = none then none else backwardEntries E n (prevEntry E l)

/-- `go_to_history_relative` (3493-3516). -/
def historyRelative (E : Env) (n : Int) (p : CurPos) (st : St) : Option St :=
  if isPending st then some (alert st)
  else
    match (if n > 0 then forwardEntries E n.toNat st.entry else backwardEntries E (-n).toNat st.entry) with
    | none => some (alert st)
    | some l => do
      let st ← goToHistory E l p st
      some (resetState st)

/-- The loop in `perform_search` (3733, 3770-3779) for `SEARCH_PREFIX`, for which the entries that match are those that begin with
the text (C38).  The number of rounds is at most that of the entries. -/
def searchEntry (E : Env) (fwd : Bool) (t : List Char) : Nat → Option Nat → Option Nat
  | 0, _ => none
  | n + 1, l =>
    match (if fwd then nextEntry E l else prevEntry E l) with
    | none => none
    | some k => if t.isPrefixOf (E.hist[k]?.getD []) then some k else searchEntry E fwd t n (some k)

/-- Whether the new line in the undo history begins with the text: `beginning_search_check_go_to_history` (3894-3903). -/
def newLineMatches (t : List Char) (st : St) : Bool :=
  match (if st.undoEntry = none then st.undo[st.undoIndex]? else none) with
  | some (_, c) => t.isPrefixOf c
  | none => false

/-- The loop in `beginning_search` (3878-3889). -/
def beginningLoop (E : Env) (fwd : Bool) (t : List Char) : Nat → St → Option St
  | 0, st => some st
  | n + 1, st =>
    match (if fwd && st.entry = none then none else searchEntry E fwd t (E.hist.length + 1) st.entry) with
    | none =>
      if fwd && newLineMatches t st then goToHistory E none .keep st else some (alert st)
    | some k =>
      match goToHistory E (some k) .keep st with
      | none => none
      | some st => beginningLoop E fwd t n st

/-- `beginning_search` (3864-3892). -/
def beginningSearch (E : Env) (fwd : Bool) (st : St) : Option St :=
  if isPending st then some (alert st)
  else do
    let n := getCount st.arg 1
    let st ← beginningLoop E (if n < 0 then !fwd else fwd) (st.buf.take st.idx) n.natAbs st
    some (resetState st)

/-! ## Commands -/

/-- Every command but `redo`. -/
def base (E : Env) (cmd : Cmd) (c : Char) (st : St) : Option St :=
  match cmd with
  | .noop | .redraw => some (resetState st)
  | .alert => some (alert st)
  | .selfInsert => some (selfInsert c st)
  | .insertTab => some (selfInsert '\t' st)
  | .digit => some (digit c st)
  | .bolOrDigit => if st.arg.sign = 0 then doMotion E .beginningOfLine st else some (digit c st)
  | .acceptLine => some (acceptLine st)
  | .acceptWithHash => some (acceptWithHash st)
  | .acceptPrediction =>
    let st := acceptLine st
    some (if st.state = .done then { st with mainLen := none } else st)
  | .eof => some (eof st)
  | .eofIfEmpty => some (if activeLength st = 0 then eof st else alert st)
  | .eofOrDelete =>
    if activeLength st = 0 then some (eof st)
    else execOn E (if st.arg.sign = 0 then { delete := true } else .kill) .forwardChar st
  | .setMode m => setMode m false st
  | .viReplace => setMode .viInsert true st
  | .expectChar =>
    match st.arg.char with
    | none => some (alert st)
    | some f => charFunc E f c { st with cur := some (.charFunc f, c) }
  | .abortExpectChar =>
    match st.arg.char with
    | none => some (alert st)
    | some _ => some (resetState { st with mode := st.saveMode })
  | .motion m => doMotion E m st
  | .char .viReplaceChar => if isPending st then some (alert st) else some (expect .viReplaceChar st)
  | .char f => do
    let st ← maybeSave st
    some (expect f st)
  | .charFunc f => charFunc E f c st
  | .refind =>
    match st.lastFind with
    | some (.charFunc f, d) => charFunc E f d st
    | some _ => none
    | none => some (alert st)
  | .refindRev =>
    match st.lastFind with
    | some (.charFunc f, d) =>
      let a := st.arg
      charFunc E f d { st with arg :=
        if a.sign = 0 then { a with sign := -1, abs := 1 } else { a with sign := if a.sign ≥ 0 then -1 else 1 } }
    | some _ => none
    | none => some (alert st)
  | .delete m => execOn E (if st.arg.sign = 0 then { delete := true } else .kill) m st
  | .onMotion f m => execOn E f m st
  | .onLine f => execOnLine E f st
  | .pending f => setPending E f st
  | .viAppend => execOn E { insert := true, toStart := true, toEnd := true } .forwardChar (resetCount st)
  | .putBefore => putKilled false true st
  | .put => putKilled true true st
  | .putLeft => putKilled false false st
  | .putPop => putPop st
  | .undo => cancelUndo (-getCount st.arg 1) st
  | .undoAll => cancelUndo (-countMax) st
  | .cancelUndo => cancelUndo (getCount st.arg 1) st
  | .cancelUndoAll => cancelUndo countMax st
  | .redo => none
  | .appendLastBigword => appendLastBigword E st
  | .transposeChars => transposeChars st
  | .transposeWords => transposeWords E st
  | .capitalizeWord => capitalizeWord E st
  | .deleteHorizontalSpace => replaceSpace E (st.arg.sign = 0) [] st
  | .justOneSpace => justOneSpace E st
  | .history e p => historyAbsolute E e p st
  | .nextHistory p => historyRelative E (getCount st.arg 1) p st
  | .prevHistory p => historyRelative E (-getCount st.arg 1) p st
  | .beginningSearch f => beginningSearch E f st

/-- A command; `cmd_redo` (2292-2304) executes the recorded one. -/
def exec (E : Env) (cmd : Cmd) (c : Char) (st : St) : Option St :=
  match cmd with
  | .redo =>
    if isPending st then some (alert st)
    else
      match st.lastEdit with
      | none => some (alert st)
      | some ((f, d), a) =>
        let a := if st.arg.sign ≠ 0 then { a with sign := st.arg.sign, abs := st.arg.abs, multiplier := st.arg.multiplier } else a
        base E f d { st with lastEdit := some ((f, d), a), arg := a }
  | cmd => base E cmd c st

/-- `le_invoke_command` (396-427). -/
def invoke (E : Env) (cmd : Cmd) (c : Char) (st : St) : Option St := do
  let st ← exec E cmd c { st with cur := some (cmd, c) }
  let st := extendMain st.idx { st with last := st.cur }
  let st := match st.state with
    | .editing =>
      match E.predict with
      | some f => updatePrediction E f st
      | none => st
    | _ => clearPrediction st
  some (if st.mode = .viCommand ∧ st.idx > 0 ∧ st.idx = st.buf.length then { st with idx := st.idx - 1 } else st)

/-- `le_editing_init` (342-374): what is kept from the line before is in `st`. -/
def start (E : Env) (vi : Bool) (st : St) : St :=
  let st := { st with
    buf := [], mainLen := some 0, idx := 0, entry := none, value := []
    mode := if vi then .viInsert else .emacs
    last := none, undo := [], undoIndex := 0, undoSave := 0, undoEntry := none, state := .editing }
  let st := setOverwriting false (resetState (saveUndo st))
  match E.predict with
  | some f => updatePrediction E f st
  | none => st

/-- The commands one after another. -/
def invokeAll (E : Env) : List (Cmd × Char) → St → Option St
  | [], st => some st
  | (cmd, c) :: cs, st =>
    match invoke E cmd c st with
    | none => none
    | some st => invokeAll E cs st

/-- `le_editing_finalize` (378-393): the line without the newline that is added. -/
def finalize (st : St) : List Char := (clearPrediction st).buf

end Yash.Edit
