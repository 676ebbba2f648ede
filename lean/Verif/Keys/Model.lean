import Verif.Trie.Model
import Verif.Input.Model
/-!
# Reading keys for line editing (lineedit/lineedit.c:146-443)

The bytes that the terminal sends are sorted into key sequences and characters (the "first buffer"), which are looked up in the key bindings of the
current mode (the "second buffer"). The editor is a parameter: its state `S` is whatever its commands change. Updating the display, the alert and error
messages are left out.
-/
set_option autoImplicit false

namespace Yash.Keys

open Yash.Input (Byte Decoder mbrtowc)

/-- The order of bytes and of characters, by which the children of a node are sorted (trie.c:101-124, 129-152). -/
def ltByte (a b : Byte) : Bool := decide (a.toNat < b.toNat)

def ltChar (a b : Char) : Bool := decide (a.toNat < b.toNat)

/-- What the reader depends on. -/
structure Terminal (T S Cmd : Type) where
  /-- `mbrtowc` and the initial state. -/
  decoder : Decoder T
  initial : T
  /-- `le_keycodes`. -/
  codes : Trie.Node Byte (List Char)
  /-- `le_interrupt_char`, `le_eof_char`, `le_kill_char`, `le_erase_char`; `none` is -1 (terminfo.c:860, 890-893). -/
  interrupt : Option Byte
  eof : Option Byte
  kill : Option Byte
  erase : Option Byte
  /-- The result of `has_meta_bit` for bytes with the highest bit (lineedit.c:396-411). -/
  convmeta : Bool
  /-- `le_current_mode->keymap`. -/
  keymap : S → Trie.Node Char Cmd
  /-- `le_current_mode->default_command`. -/
  default : S → Cmd
  /-- `le_invoke_command`. -/
  invoke : Cmd → Char → S → S
  /-- `le_editstate == LE_EDITSTATE_EDITING`. -/
  editing : S → Bool
  /-- `le_next_verbatim`, and resetting it. -/
  verbatim : S → Bool
  unverbatim : S → S
  /-- `le_editstate = LE_EDITSTATE_INTERRUPTED` or `LE_EDITSTATE_ERROR`. -/
  stop : S → S

/-- The static variables (lineedit.c:152-161, 187-188) and the state of the editor. -/
structure Reader (T S : Type) where
  /-- `reader_first_buffer` -/
  first : List Byte
  /-- `reader_state` -/
  state : T
  /-- `reader_second_buffer` -/
  second : List Char
  incomplete : Bool
  ambiguous : Bool
  ed : S
deriving DecidableEq

/-- What `read_next` is given: a byte from the terminal, a byte from the prebuffer (the answer of the terminal to a question that was read too early),
that nothing came in time, that the shell was interrupted, or that there is an error or the end of the input. -/
inductive Ev where
  | typed (b : Byte)
  | pre (b : Byte)
  | timeout
  | interrupted
  | error

variable {T S Cmd : Type}

/-- `make_trieget` for the special characters (lineedit.c:257-264, 413-420). -/
def special (E : Terminal T S Cmd) (b : Byte) : Option (List Char) :=
  if some b = E.interrupt then some "\\!".toList
  else if some b = E.eof then some "\\#".toList
  else if some b = E.kill then some "\\$".toList
  else if some b = E.erase then some "\\?".toList
  else none

/-- lineedit.c:254-267. -/
def lookup (E : Terminal T S Cmd) (first : List Byte) : Option (Trie.Get (List Char)) :=
  match first with
  | [] => Trie.get ltByte E.codes []
  | b :: _ =>
    match special E b with
    | some k => some ⟨some k, false, 1⟩
    | none => Trie.get ltByte E.codes first

/-- How the loop over the first buffer is left. -/
inductive Next where
  | wide
  | keymap
deriving DecidableEq

/-- The loop over the first buffer (lineedit.c:249-286): where to go on, `keycode_ambiguous` and the buffers. The number bounds the steps; `none` is an
endless loop. -/
def codeLoop (E : Terminal T S Cmd) (timeout : Bool) : Nat → List Byte → List Char → Option (Next × Bool × List Byte × List Char)
  | 0, _, _ => none
  | n + 1, first, second =>
    if first.isEmpty then some (.wide, false, first, second)
    else
      match lookup E first with
      | none => none
      | some tg =>
        match tg.exact, tg.prefixMatch with
        | none, false => some (.wide, false, first, second)
        | some k, false => codeLoop E timeout n (first.drop tg.matchlength) (second ++ k)
        | some k, true =>
          if timeout then codeLoop E timeout n (first.drop tg.matchlength) (second ++ k)
          else some (.keymap, true, first, second)
        | none, true => some (.keymap, false, first, second)

/-- `append_to_second_buffer` (lineedit.c:425-443). -/
def append (E : Terminal T S Cmd) (c : Char) (second : List Char) (ed : S) : List Char × S :=
  if E.verbatim ed then (second, E.invoke (E.default (E.unverbatim ed)) c (E.unverbatim ed))
  else if c = '\x00' then (second, ed)
  else if c = '\\' then (second ++ "\\\\".toList, ed)
  else (second ++ [c], ed)

/-- The loop that converts bytes to characters (lineedit.c:290-317). -/
def wideLoop (E : Terminal T S Cmd) : Nat → Reader T S → Option (Reader T S)
  | 0, _ => none
  | n + 1, r =>
    if r.first.isEmpty then some r
    else
      match mbrtowc E.decoder r.state r.first with
      | .nul s =>
        let (second, ed) := append E '\x00' r.second r.ed
        wideLoop E n { r with first := [], state := s, second := second, incomplete := false, ed := ed }
      | .invalid _ => some { r with first := [], state := E.initial, incomplete := false, ed := E.unverbatim r.ed }
      | .incomplete s => some { r with first := [], state := s, incomplete := true }
      | .char c k s =>
        let (second, ed) := append E c r.second r.ed
        wideLoop E n { r with first := r.first.drop (k + 1), state := s, second := second, incomplete := false, ed := ed }

/-- The loop over the second buffer (lineedit.c:320-355). `none` is a failed assertion. -/
def keymapLoop (E : Terminal T S Cmd) : Nat → List Char → S → Option (List Char × S)
  | 0, _, _ => none
  | n + 1, second, ed =>
    match second with
    | [] => some ([], ed)
    | h :: _ =>
      match Trie.get ltChar (E.keymap ed) second with
      | none => none
      | some tg =>
        match tg.exact, tg.prefixMatch with
        | none, false =>
          let c := if second.length > 1 then '\x00' else h
          let ed := E.invoke (E.default ed) c ed
          if !E.editing ed then some ([], ed) else keymapLoop E n [] ed
        | some cmd, false =>
          if tg.matchlength = 0 then none
          else
            match second[tg.matchlength - 1]? with
            | none => none
            | some c =>
              let ed := E.invoke cmd c ed
              let second := second.drop tg.matchlength
              if !E.editing ed then some (second, ed) else keymapLoop E n second ed
        | _, true => some (second, ed)

/-- The bytes that are added to the first buffer (lineedit.c:191-193, 229-236). -/
def received (E : Terminal T S Cmd) : Ev → List Byte
  | .typed b => if E.convmeta && b ≥ 0x80 then [0x1B, b &&& 0x7F] else [b]
  | .pre b => [b]
  | _ => []

/-- From `process_keymap`. -/
def processKeymap (E : Terminal T S Cmd) (r : Reader T S) : Option (Reader T S) :=
  (keymapLoop E (r.second.length + 1) r.second r.ed).map fun (second, ed) => { r with second := second, ed := ed }

/-- From `process_wide`. -/
def processWide (E : Terminal T S Cmd) (r : Reader T S) : Option (Reader T S) :=
  (wideLoop E (r.first.length + 1) r).bind (processKeymap E)

/-- `read_next` (lineedit.c:185-357). An error of `read` and of `wait_for_input` are not distinguished (the latter keeps the two flags). Without an ambiguous key code, it waits without a time limit, so that there is no timeout (204-205). -/
def readNext (E : Terminal T S Cmd) (r : Reader T S) (ev : Ev) : Option (Reader T S) :=
  match ev, r.ambiguous with
  | .timeout, false => some r
  | .interrupted, _ => some { r with ed := E.stop r.ed }
  | .error, _ => some { r with incomplete := false, ambiguous := false, ed := E.stop r.ed }
  | _, _ =>
    let first := r.first ++ received E ev
    if r.incomplete || E.verbatim r.ed then processWide E { r with first := first }
    else
      match codeLoop E (ev matches .timeout) (first.length + 1) first r.second with
      | none => none
      | some (.wide, amb, first, second) => processWide E { r with first := first, second := second, ambiguous := amb }
      | some (.keymap, amb, first, second) => processKeymap E { r with first := first, second := second, ambiguous := amb }

/-- `reader_init` (lineedit.c:165-172), for the line after the one that was read last. `ed` is the new state of the editor. -/
def readerInit (E : Terminal T S Cmd) (r : Reader T S) (ed : S) : Reader T S :=
  { r with first := [], state := E.initial, second := [], ed := E.unverbatim ed }

/-- `read_next` is called while the line is being edited (lineedit.c:83-86). -/
def run (E : Terminal T S Cmd) (r : Reader T S) : List Ev → Option (Reader T S)
  | [] => some r
  | ev :: evs => if E.editing r.ed then (readNext E r ev).bind fun r => run E r evs else some r

end Yash.Keys
