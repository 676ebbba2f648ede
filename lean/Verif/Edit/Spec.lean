import Verif.Edit.Model
import Verif.Edit.WordSpec
/-!
# What line editing should do
-/
set_option autoImplicit false

namespace Yash.Edit

/-- The history does not change, and entries have numbers that are found. -/
structure Env.Ok (E : Env) : Prop where
  sane : Spec.Sane E.chars
  number : ∀ n k, E.number n = some k → k < E.hist.length

end Yash.Edit

namespace Yash.Edit.Spec

/-- The line as it was typed: what is shown without the prediction. -/
def text (st : St) : List Char :=
  match st.mainLen with
  | none => st.buf
  | some m => st.buf.take (max m st.idx)

/-- What undo goes through: a place in a list of lines, each with the position of the cursor. -/
structure Zip where
  /-- The lines before, the nearest first. -/
  past : List (Nat × List Char)
  present : Nat × List Char
  /-- The lines after, the nearest first. -/
  future : List (Nat × List Char)
deriving DecidableEq, Repr

/-- The line is recorded: if it is the current one, only the position of the cursor changes; otherwise it comes after the current
one, and what came after that is forgotten. -/
def Zip.snap (z : Zip) (x : Nat × List Char) : Zip :=
  if x.2 = z.present.2 then { z with present := x } else ⟨z.present :: z.past, x, []⟩

/-- One line back. -/
def Zip.back (z : Zip) : Zip :=
  match z.past with
  | [] => z
  | x :: p => ⟨p, x, z.present :: z.future⟩

/-- One line forward. -/
def Zip.forward (z : Zip) : Zip :=
  match z.future with
  | [] => z
  | x :: f => ⟨z.present :: z.past, x, f⟩

/-- Several steps. -/
def Zip.times (f : Zip → Zip) : Nat → Zip → Zip
  | 0, z => z
  | n + 1, z => Zip.times f n (f z)

/-- The line as it was before it was edited: an entry of the history, or an empty line. -/
def original (E : Env) : Option Nat → List Char
  | none => []
  | some k => E.hist[k]?.getD []

/-- The place of a line in the history; the line that is not in it comes after all others. -/
def place (E : Env) : Option Nat → Int
  | none => E.hist.length
  | some k => k

/-- The commands that go to other lines. -/
def Travels : Cmd → Prop
  | .history _ _ | .nextHistory _ | .prevHistory _ | .beginningSearch _ => True
  | _ => False

/-- Where a motion goes from `i` in the line `s` if the count is `n`; `column` is the count if there is one, and zero otherwise. -/
def Goes (C : Chars) (m : Motion) (n column : Int) (s : List Char) (i r : Nat) : Prop :=
  match m with
  | .forwardChar => (r : Int) = max 0 (min (s.length : Int) (i + n))
  | .backwardChar => (r : Int) = max 0 (min (s.length : Int) (i - n))
  | .forward k => if 0 ≤ n then Steps (NextStart (sortOf C k) s) n.toNat i r else Steps (PrevStart (sortOf C k) s) (-n).toNat i r
  | .backward k => if 0 ≤ n then Steps (PrevStart (sortOf C k) s) n.toNat i r else Steps (NextStart (sortOf C k) s) (-n).toNat i r
  | .endOf k => Steps (NextEnd (sortOf C k) s) n.toNat i r
  | .forwardEmacs => if 0 ≤ n then Steps (AfterEnd (sortEmacs C) s) n.toNat i r else Steps (PrevStart (sortEmacs C) s) (-n).toNat i r
  | .backwardEmacs => if 0 ≤ n then Steps (PrevStart (sortEmacs C) s) n.toNat i r else Steps (AfterEnd (sortEmacs C) s) (-n).toNat i r
  | .beginningOfLine => r = 0
  | .endOfLine => r = s.length
  | .goToColumn => (r : Int) = if 0 ≤ column then min (s.length : Int) (max 0 (column - 1)) else max 0 (s.length + column)
  | .firstNonblank => r ≤ s.length ∧ (∀ j c, s[j]? = some c → j < r → C.blank c = true) ∧ ∀ c, s[r]? = some c → C.blank c = false

/-- The `n`th `c` after the position `i` in the line `s` is at `q`; if `n` is negative, the one before `i`. -/
def Occurs (c : Char) (s : List Char) (i : Nat) (n : Int) (q : Nat) : Prop :=
  s[q]? = some c ∧ (0 < n ∧ i < q ∧ (((s.drop (i + 1)).take (q - i)).count c : Int) = n ∨
    n < 0 ∧ q < i ∧ (((s.drop q).take (i - q)).count c : Int) = -n)

/-- The command `cmd`, for which `d` was typed, looks for the `n`th `c`, and with `till` goes to the character next to it only. -/
def Seeks (st : St) (cmd : Cmd) (d c : Char) (n : Int) (till : Bool) : Prop :=
  ∃ f, (cmd = .expectChar ∧ st.arg.char = some f ∧ c = d ∧ n = (if f = .findChar ∨ f = .tillChar then getCount st.arg 1 else -getCount st.arg 1) ∨
      cmd = .refind ∧ st.lastFind = some (.charFunc f, c) ∧ n = (if f = .findChar ∨ f = .tillChar then getCount st.arg 1 else -getCount st.arg 1) ∨
      cmd = .refindRev ∧ st.lastFind = some (.charFunc f, c) ∧ n = (if f = .findChar ∨ f = .tillChar then -getCount st.arg 1 else getCount st.arg 1) ∧
        (st.arg.sign = 0 ∨ (st.arg.sign = 1 ∨ st.arg.sign = -1) ∧ st.arg.abs ≠ 0)) ∧
    f ≠ .viReplaceChar ∧ (till = true ↔ f = .tillChar ∨ f = .tillCharRev)

/-- Operators apply to the character the motion goes to as well. -/
def inclusive : Motion → Bool
  | .endOf _ | .endOfLine => true
  | _ => false

/-- The end of the part of the line `s` that an operator changes if the motion goes from `i` to `r`. -/
def upTo (m : Motion) (s : List Char) (i r : Nat) : Nat :=
  if inclusive m = true ∧ max i r < s.length then max i r + 1 else max i r

/-- The command `cmd` applies the operator `f` to the motion `m`: the operator waits for a motion, or the command is both. -/
def Operates (st : St) (cmd : Cmd) (f : Mec) (m : Motion) : Prop :=
  cmd = .motion m ∧ st.arg.motion = f ∨ cmd = .onMotion f m ∧ st.arg.motion = .move ∨
    cmd = .delete m ∧ st.arg.motion = .move ∧ f = (if st.arg.sign = 0 then { delete := true } else .kill)

/-- The text that was killed last: the one before the place in the ring of 32 where the next one goes. -/
def lastKilled (st : St) : Option (List Char) := (st.ring[(st.nextKill + 31) % 32]?).join

/-- What an operator does to the case of a character. -/
def cased (C : Chars) (f : Mec) (c d : Char) : Prop :=
  match f.upper, f.lower with
  | true, false => d = C.toUpper c
  | false, true => d = C.toLower c
  | true, true => (C.lower c = true → d = C.toUpper c) ∧ (C.lower c = false → d = C.toLower c)
  | false, false => d = c

/-- The motion goes backward by bigwords, semiwords or emacswords, and one of them starts at the second character. -/
def Missed (C : Chars) (m : Motion) (s : List Char) : Prop :=
  match m with
  | .forward .viword | .backward .viword => False
  | .forward k | .backward k => IsStart (sortOf C k) s 1
  | .forwardEmacs | .backwardEmacs => IsStart (sortEmacs C) s 1
  | _ => False

/-- Commands that record the line before they change it, so that undo brings it back.  Not among them are typing, `r` in vi mode and
backspace after backspace, which are undone together with what is done before or after them, the commands that undo, and those that
go to other lines. -/
def Records (st : St) : Cmd → Prop
  | .selfInsert | .insertTab | .acceptWithHash | .acceptPrediction => False
  | .undo | .undoAll | .cancelUndo | .cancelUndoAll => False
  | .history _ _ | .nextHistory _ | .prevHistory _ | .beginningSearch _ => False
  | .charFunc f => f ≠ .viReplaceChar
  | .expectChar => st.arg.char ≠ some .viReplaceChar
  | .delete m => ¬(m = .backwardChar ∧ st.last.map (·.1) = some (.delete .backwardChar))
  | .redo => ∀ c d a, st.lastEdit = some ((c, d), a) →
      match c with
      | .selfInsert | .insertTab | .acceptWithHash | .acceptPrediction => False
      | .undo | .undoAll | .cancelUndo | .cancelUndoAll => False
      | .history _ _ | .nextHistory _ | .prevHistory _ | .beginningSearch _ => False
      | .charFunc f => f ≠ .viReplaceChar
      | .expectChar => False
      | _ => True
  | _ => True

/-- Where the cursor is after the command is undone: where it was, but at the beginning of the line for the commands that are about the
whole line. -/
def cursorBefore (st : St) : Cmd → Nat
  | .onLine _ | .pending _ => 0
  | .redo =>
    match st.lastEdit with
    | some ((.onLine _, _), _) | some ((.pending _, _), _) => 0
    | _ => st.idx
  | _ => st.idx

/-- Killed text is put back only while no operator is pending, and a positive number of times. -/
def Careful (st : St) : Cmd → Prop
  | .put | .putBefore | .putLeft | .putPop => st.arg.motion = .move ∧ 0 < getCount st.arg 1
  | .redo => ∀ c d a, st.lastEdit = some ((c, d), a) → c = .put ∨ c = .putBefore ∨ c = .putLeft ∨ c = .putPop →
      0 < getCount (if st.arg.sign ≠ 0 then { a with sign := st.arg.sign, abs := st.arg.abs, multiplier := st.arg.multiplier } else a) 1
  | _ => True

/-- The editor when the shell starts. -/
def blank : St := { mode := .emacs, saveMode := .emacs }

/-- A state of the editor between two commands. -/
inductive Session : Env → St → Prop
  /-- The first line. -/
  | first (E : Env) (vi : Bool) : E.Ok → Session E (start E vi blank)
  /-- A command is executed. -/
  | command {E : Env} {st st' : St} (cmd : Cmd) (c : Char) : Session E st → Careful st cmd → invoke E cmd c st = some st' → Session E st'
  /-- Another line is read. -/
  | line {E E' : Env} {st : St} (vi : Bool) : Session E st → E'.Ok → Session E' (start E' vi st)

end Yash.Edit.Spec
