import Verif.Input.Model
/-!
# Specification of reading lines

`Text` says which characters a sequence of bytes stands for.  A line is the characters up to and
including the first newline.
-/
set_option autoImplicit false

namespace Yash.Input.Spec

/-- The bytes are one character: each of them but the last one leaves the character incomplete. -/
inductive OneChar {S : Type} (D : Decoder S) : S → List Byte → Char → S → Prop
  | last (s : S) (b : Byte) (c : Char) (s' : S) : D.step s b = .char c s' → OneChar D s [b] c s'
  | more (s : S) (b : Byte) (s1 : S) (bs : List Byte) (c : Char) (s' : S) :
      D.step s b = .more s1 → OneChar D s1 bs c s' → OneChar D s (b :: bs) c s'

/-- The bytes are the characters, in order; `s` and `s'` are the shift states before and after
them. -/
inductive Text {S : Type} (D : Decoder S) : S → List Byte → List Char → S → Prop
  | nil (s : S) : Text D s [] [] s
  | cons (s : S) (bs : List Byte) (c : Char) (s1 : S) (bytes : List Byte) (cs : List Char)
      (s' : S) : OneChar D s bs c s1 → Text D s1 bytes cs s' → Text D s (bs ++ bytes) (c :: cs) s'

/-- No error happens.  (The system may interrupt and may give few bytes at a time.) -/
def NoError (sched : List Ev) : Prop := ∀ e ∈ sched, e ≠ .waitError ∧ e ≠ .readError

/-- How often `read` is successful. -/
def reads : List Ev → Nat
  | [] => 0
  | .data _ :: sched => reads sched + 1
  | _ :: sched => reads sched

/-- The bytes in the shell's buffer, which are not more than it can hold, are those before the
offset of the file.  (So it is at the beginning, when the buffer is empty.) -/
def Consistent {S : Type} (f : File) (info : Info S) : Prop :=
  f.pos ≤ f.data.length ∧ 0 < info.size ∧ info.pending.length ≤ info.size ∧
  ∃ before, f.data.take f.pos = before ++ info.pending

/-- What has not been read yet: the bytes in the shell's buffer and the rest of the file. -/
def unread {S : Type} (f : File) (info : Info S) : List Byte := info.pending ++ f.data.drop f.pos

end Yash.Input.Spec
