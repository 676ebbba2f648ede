import Verif.Syntax.Ast
import Verif.Expand.Four
/-!
# Specification of the expansion of quoted words

A word is written as a sequence of segments: characters without special meaning, single-quoted strings,
backslashed characters and double-quoted strings, which contain characters and variables.  A segment
contributes a list of fields.  Where two contributions meet, the last field of the first and the first
field of the second are joined.
-/
set_option autoImplicit false

namespace Yash.Expand.Spec

open Syntax (Word WordUnit Param)

/-- `$x` -/
def simpleParam (x : List Char) : Param := .mk {} (.name x) [] [] [] []

/-- A part of a double-quoted string. -/
inductive DPart where
  /-- A character. -/
  | chr (c : Char)
  /-- A backslash that quotes the next character. -/
  | esc (c : Char)
  /-- A backslash that does not. -/
  | keep (c : Char)
  /-- A variable. -/
  | var (x : List Char)

/-- A part of a word. -/
inductive Seg where
  /-- A character that is not quoted. -/
  | chr (c : Char)
  /-- A single-quoted string. -/
  | sq (s : List Char)
  /-- A backslashed character. -/
  | bs (c : Char)
  /-- A double-quoted string. -/
  | dq (ps : List DPart)

/-- The characters that a backslash quotes in double quotes. -/
def dqSpecial (c : Char) : Prop := c = '$' ∨ c = '`' ∨ c = '"' ∨ c = '\\'

def DPart.Ok : DPart → Prop
  | .chr c => c ≠ '"' ∧ c ≠ '\\'
  | .esc c => dqSpecial c
  | .keep c => ¬ dqSpecial c
  | .var _ => True

def Seg.Ok : Seg → Prop
  | .chr c => c ∉ ['"', '\'', '\\', '{', '*', '?', '[']
  | .sq s => '\'' ∉ s
  | .bs _ => True
  | .dq ps => ∀ p ∈ ps, p.Ok

/-! ## How a word is written -/

/-- A piece of the source text that is in one word unit. -/
inductive Piece where
  | text (s : List Char)
  | unit (u : WordUnit)

def DPart.piece : DPart → Piece
  | .chr c => .text [c]
  | .esc c => .text ['\\', c]
  | .keep c => .text ['\\', c]
  | .var x => .unit (.param (simpleParam x))

def Seg.pieces : Seg → List Piece
  | .chr c => [.text [c]]
  | .sq s => [.text ('\'' :: s ++ ['\''])]
  | .bs c => [.text ['\\', c]]
  | .dq ps => .text ['"'] :: ps.map DPart.piece ++ [.text ['"']]

/-- `w` consists of these pieces; strings may be divided anywhere between pieces. -/
inductive Spells : List Piece → Word → Prop
  | nil : Spells [] []
  | unit (u : WordUnit) (ps : List Piece) (w : Word) : Spells ps w → Spells (.unit u :: ps) (u :: w)
  | str (ts : List (List Char)) (ps : List Piece) (w : Word) :
      Spells ps w → Spells (ts.map Piece.text ++ ps) (.str ts.flatten :: w)

/-- `w` is written with these segments. -/
def Writes (gs : List Seg) (w : Word) : Prop := Spells (gs.flatMap Seg.pieces) w

/-! ## What a word means -/

/-- Joins two lists of fields. -/
def glue {α : Type} : List (List α) → List (List α) → List (List α)
  | [], r => r
  | [a], [] => [a]
  | [a], f :: fs => (a ++ f) :: fs
  | a :: b :: l, r => a :: glue (b :: l) r

/-- The fields of a part of a double-quoted string, given the fields of variables. -/
def DPart.fields (val : List Char → List (List Char)) : DPart → List (List Char)
  | .chr c => [[c]]
  | .esc c => [[c]]
  | .keep c => [['\\', c]]
  | .var x => val x

/-- The variables in a part. -/
def DPart.vars : DPart → List (List Char)
  | .var x => [x]
  | _ => []

/-- The contents of a double-quoted string. -/
def content (val : List Char → List (List Char)) (ps : List DPart) : List (List Char) :=
  ps.foldr (fun p r => glue (p.fields val) r) [[]]

/-- The fields of a segment.  A double-quoted string is a field even if it is empty, unless it contains a
variable that expands to no field and nothing else. -/
def Seg.fields (val : List Char → List (List Char)) : Seg → List (List Char)
  | .chr c => [[c]]
  | .sq s => [s]
  | .bs c => [[c]]
  | .dq ps => if (∃ x ∈ ps.flatMap DPart.vars, val x = []) ∧ content val ps = [[]] then [] else content val ps

/-- The fields of a word. -/
def wordFields (val : List Char → List (List Char)) (gs : List Seg) : List (List Char) :=
  gs.foldr (fun g r => glue (g.fields val) r) []

/-- The variables in a segment. -/
def Seg.vars : Seg → List (List Char)
  | .dq ps => ps.flatMap DPart.vars
  | _ => []

/-- The character between the values of `"$*"`. -/
def separator (ifs : Option (List Char)) : List Char :=
  match ifs with
  | none => [' ']
  | some s => s.take 1

/-- The fields of a variable in double quotes. -/
def quotedFields (ifs : Option (List Char)) : VarValue → List (List Char)
  | .notFound => [[]]
  | .scalar v => [v]
  | .array vs => vs
  | .concat vs => [List.intercalate (separator ifs) vs]

/-- The values of a variable outside double quotes. -/
def unquotedValues : VarValue → List (List Char)
  | .notFound => [[]]
  | .scalar v => [v]
  | .array vs => vs
  | .concat vs => vs

/-- The characters of a value outside double quotes. -/
def softWord (v : List Char) : CWord := v.map fun c => (c, { origin := .soft })

/-- What becomes of a field in pathname expansion. -/
def pathnames (glob nullglob isPattern : Bool) (found : List (List Char)) (field : List Char) : List (List Char) :=
  if glob = true ∧ isPattern = true ∧ (found ≠ [] ∨ nullglob = true) then found else [field]

end Yash.Expand.Spec
