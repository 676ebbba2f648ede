import Verif.Keys.Model
import Verif.Trie.Spec
import Verif.Input.Spec
/-!
# What is expected of reading keys

The key codes and the key bindings are finite maps, which result from any history of changes to them (see C06).
-/
set_option autoImplicit false

namespace Yash.Keys.Spec

open Yash.Input (Byte Decoder)
open Yash.Input.Spec (OneChar)

variable {T S Cmd : Type}

/-- `code` says which key the terminal sends as which bytes; `bound s` says which command a key sequence is bound to in the mode of the editor. -/
structure Maps (E : Terminal T S Cmd) (code : List Byte → Option (List Char)) (bound : S → List Char → Option Cmd) : Prop where
  codes : ∃ ops, Trie.run ltByte 0 ops = some E.codes ∧ ∀ k, code k = Trie.specMap 0 ops k
  keymap : ∀ s, ∃ ops, Trie.run ltChar '\x00' ops = some (E.keymap s) ∧ ∀ k, bound s k = Trie.specMap '\x00' ops k
  noEmptyCode : code [] = none
  noEmptyKey : ∀ s, bound s [] = none

/-- The keys that stand for the special characters of the terminal. -/
def specialKeys (E : Terminal T S Cmd) : List (Option Byte × List Char) :=
  [(E.interrupt, "\\!".toList), (E.eof, "\\#".toList), (E.kill, "\\$".toList), (E.erase, "\\?".toList)]

/-- The byte is a special character of the terminal and stands for the key. -/
def SpecialKey (E : Terminal T S Cmd) (b : Byte) (key : List Char) : Prop := ((specialKeys E).find? fun e => e.1 == some b).map (·.2) = some key

def NotSpecial (E : Terminal T S Cmd) (b : Byte) : Prop := ∀ e ∈ specialKeys E, e.1 ≠ some b

/-- A character as a key sequence: the backslash is the only one that is not itself. -/
def keyOf (c : Char) : List Char := if c = '\\' then "\\\\".toList else [c]

/-- The bytes are the beginning of a character. -/
inductive Begins (D : Decoder T) : T → List Byte → T → Prop
  | nil (s : T) : Begins D s [] s
  | more (s : T) (b : Byte) (s1 : T) (bs : List Byte) (s' : T) : D.step s b = .more s1 → Begins D s1 bs s' → Begins D s (b :: bs) s'

/-- How bytes become key sequences. `Sorts E code late s bytes text s' rest`: in the state `s` of the conversion, the bytes are read as the text, and
`rest` is left. A key is taken if there is no longer one among the bytes that have arrived (`arrived`) and, unless something was late, there could be
no longer one with more bytes. Bytes are lost only if they are no character. -/
inductive Sorts (E : Terminal T S Cmd) (code : List Byte → Option (List Char)) (late : Bool) : T → List Byte → List Char → T → List Byte → Prop
  | nil (s : T) (bytes : List Byte) : Sorts E code late s bytes [] s bytes
  | special (s : T) (b : Byte) (key : List Char) (bytes : List Byte) (text : List Char) (s' : T) (rest : List Byte) :
      SpecialKey E b key → Sorts E code late s bytes text s' rest → Sorts E code late s (b :: bytes) (key ++ text) s' rest
  | code (s : T) (k : List Byte) (key : List Char) (arrived bytes : List Byte) (text : List Char) (s' : T) (rest : List Byte) :
      (∀ b ∈ k.head?, NotSpecial E b) → code k = some key → arrived <+: bytes →
      (∀ x, x ≠ [] → x <+: arrived → code (k ++ x) = none) → (late = false → ∀ x, x ≠ [] → code (k ++ arrived ++ x) = none) →
      Sorts E code late s bytes text s' rest → Sorts E code late s (k ++ bytes) (key ++ text) s' rest
  | char (s : T) (bs : List Byte) (c : Char) (s1 : T) (bytes : List Byte) (text : List Char) (s' : T) (rest : List Byte) :
      OneChar E.decoder s bs c s1 → c ≠ '\x00' → Sorts E code late s1 bytes text s' rest → Sorts E code late s (bs ++ bytes) (keyOf c ++ text) s' rest
  | nul (s : T) (bs lost : List Byte) (s1 : T) (bytes : List Byte) (text : List Char) (s' : T) (rest : List Byte) :
      OneChar E.decoder s bs '\x00' s1 → Sorts E code late s1 bytes text s' rest → Sorts E code late s (bs ++ lost ++ bytes) text s' rest
  | bad (s : T) (bs : List Byte) (s1 : T) (b : Byte) (s2 : T) (lost bytes : List Byte) (text : List Char) (s' : T) (rest : List Byte) :
      Begins E.decoder s bs s1 → E.decoder.step s1 b = .bad s2 → Sorts E code late E.initial bytes text s' rest →
      Sorts E code late s (bs ++ b :: lost ++ bytes) text s' rest

/-- How key sequences become commands: the state `s` of the editor and the text lead to the state `s'`, and the text `rest` is left. A key sequence that
is bound is taken if there is no longer one in the text that has arrived (`arrived`), and there could be no longer one. A character that no bound
sequence begins with is given to the default command, and so is a null character for a longer text that is not bound. -/
inductive Acts (E : Terminal T S Cmd) (bound : S → List Char → Option Cmd) : S → List Char → S → List Char → Prop
  | stop (s : S) (text : List Char) : Acts E bound s text s text
  | key (s : S) (k : List Char) (cmd : Cmd) (c : Char) (arrived text : List Char) (s' : S) (rest : List Char) :
      bound s k = some cmd → k.getLast? = some c → arrived <+: text →
      (∀ x, x ≠ [] → x <+: arrived → bound s (k ++ x) = none) → (∀ x, x ≠ [] → bound s (k ++ arrived ++ x) = none) →
      Acts E bound (E.invoke cmd c s) text s' rest → Acts E bound s (k ++ text) s' rest
  | char (s : S) (c : Char) (text : List Char) (s' : S) (rest : List Char) :
      (∀ x, bound s (c :: x) = none) → Acts E bound (E.invoke (E.default s) c s) text s' rest → Acts E bound s (c :: text) s' rest
  | unbound (s : S) (u : List Char) (text : List Char) (s' : S) (rest : List Char) :
      1 < u.length → (∀ x, x <+: u → bound s x = none) → (∀ x, bound s (u ++ x) = none) →
      Acts E bound (E.invoke (E.default s) '\x00' s) text s' rest → Acts E bound s (u ++ text) s' rest

/-- The reader at the beginning, and whenever nothing is waiting. -/
def idle (s : T) (ed : S) : Reader T S := ⟨[], s, [], false, false, ed⟩

/-- The bytes for a key or a character begin neither a key code nor are they a special character. -/
def Ordinary (E : Terminal T S Cmd) (code : List Byte → Option (List Char)) (b : Byte) : Prop := NotSpecial E b ∧ ∀ x, code (b :: x) = none

/-- No other command than the default one is bound to the character, or to a sequence that begins with it. (The backslash is bound to the default command explicitly.) -/
def Unbound (E : Terminal T S Cmd) (bound : S → List Char → Option Cmd) (s : S) (c : Char) : Prop :=
  if c = '\\' then bound s "\\\\".toList = some (E.default s) ∧ ∀ x, x ≠ [] → bound s ("\\\\".toList ++ x) = none
  else ∀ x, bound s (c :: x) = none

/-- The key sequence is bound to the command, and no longer sequence is bound. `c` is what the command is given. -/
def BoundTo (bound : S → List Char → Option Cmd) (s : S) (key : List Char) (cmd : Cmd) (c : Char) : Prop :=
  bound s key = some cmd ∧ key.getLast? = some c ∧ ∀ x, x ≠ [] → bound s (key ++ x) = none

/-- What is typed on the terminal, and the command that is executed for each key and character. `Typed E code bound t s evs t' s'`: `evs` changes
the state of the editor from `s` to `s'`. -/
inductive Typed (E : Terminal T S Cmd) (code : List Byte → Option (List Char)) (bound : S → List Char → Option Cmd) : T → S → List Ev → T → S → Prop
  | nil (t : T) (s : S) : Typed E code bound t s [] t s
  /-- A character to which nothing is bound: the default command. -/
  | char (t : T) (s : S) (bs : List Byte) (c : Char) (t1 : T) (evs : List Ev) (t' : T) (s' : S) :
      E.editing s = true → E.verbatim s = false → OneChar E.decoder t bs c t1 → c ≠ '\x00' → (∀ b ∈ bs, Ordinary E code b ∧ (E.convmeta = false ∨ b < 0x80)) →
      Unbound E bound s c → Typed E code bound t1 (E.invoke (E.default s) c s) evs t' s' →
      Typed E code bound t s (bs.map .typed ++ evs) t' s'
  /-- A character to which a command is bound. -/
  | boundChar (t : T) (s : S) (bs : List Byte) (c : Char) (t1 : T) (cmd : Cmd) (evs : List Ev) (t' : T) (s' : S) :
      E.editing s = true → E.verbatim s = false → OneChar E.decoder t bs c t1 → c ≠ '\x00' → (∀ b ∈ bs, Ordinary E code b ∧ (E.convmeta = false ∨ b < 0x80)) →
      BoundTo bound s (keyOf c) cmd c → Typed E code bound t1 (E.invoke cmd c s) evs t' s' →
      Typed E code bound t s (bs.map .typed ++ evs) t' s'
  /-- A key whose code is not the beginning of another one. -/
  | key (t : T) (s : S) (bs k : List Byte) (key : List Char) (cmd : Cmd) (c : Char) (evs : List Ev) (t' : T) (s' : S) :
      E.editing s = true → E.verbatim s = false → bs.flatMap (fun b => if E.convmeta && b ≥ 0x80 then [0x1B, b &&& 0x7F] else [b]) = k → code k = some key →
      (∀ b ∈ k.head?, NotSpecial E b) → (∀ x, x ≠ [] → code (k ++ x) = none) → BoundTo bound s key cmd c →
      Typed E code bound t (E.invoke cmd c s) evs t' s' → Typed E code bound t s (bs.map .typed ++ evs) t' s'
  /-- A key whose code is the beginning of another one: it takes effect when nothing follows in time. -/
  | late (t : T) (s : S) (bs k : List Byte) (key : List Char) (cmd : Cmd) (c : Char) (more : List Byte) (evs : List Ev) (t' : T) (s' : S) :
      E.editing s = true → E.verbatim s = false → bs.flatMap (fun b => if E.convmeta && b ≥ 0x80 then [0x1B, b &&& 0x7F] else [b]) = k → code k = some key →
      (∀ b ∈ k.head?, NotSpecial E b) → more ≠ [] → (code (k ++ more)).isSome → BoundTo bound s key cmd c →
      Typed E code bound t (E.invoke cmd c s) evs t' s' → Typed E code bound t s (bs.map .typed ++ .timeout :: evs) t' s'
  /-- A special character of the terminal, whatever key codes begin with it. -/
  | special (t : T) (s : S) (b : Byte) (key : List Char) (cmd : Cmd) (c : Char) (evs : List Ev) (t' : T) (s' : S) :
      E.editing s = true → E.verbatim s = false → (E.convmeta = false ∨ b < 0x80) → SpecialKey E b key → BoundTo bound s key cmd c →
      Typed E code bound t (E.invoke cmd c s) evs t' s' → Typed E code bound t s (.typed b :: evs) t' s'
  /-- A character that is to be taken verbatim, whatever is bound to it, and even if it is a special character or begins a key code. -/
  | verbatim (t : T) (s : S) (bs : List Byte) (c : Char) (t1 : T) (evs : List Ev) (t' : T) (s' : S) :
      E.editing s = true → E.verbatim s = true → OneChar E.decoder t bs c t1 → (∀ b ∈ bs, E.convmeta = false ∨ b < 0x80) →
      Typed E code bound t1 (E.invoke (E.default (E.unverbatim s)) c (E.unverbatim s)) evs t' s' →
      Typed E code bound t s (bs.map .typed ++ evs) t' s'

end Yash.Keys.Spec
