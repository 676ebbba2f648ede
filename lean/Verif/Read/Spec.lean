import Verif.Expand.FieldSplitSpec
import Verif.Read.Model
/-!
# Specification of the `read` built-in

`Logical` says which part of the input is read and which of its characters are quoted, `Assigned`
which values the variables get.  What the fields of the line are is specified in
`Verif/Expand/FieldSplitSpec.lean` (C14).
-/
set_option autoImplicit false

namespace Yash.Read.Spec

open Yash.Expand Yash.Expand.Spec

/-- A character that may separate fields. -/
def plain (c : Char) : CChar := (c, { origin := .soft })

/-- A character that does not separate fields. -/
def quoted (c : Char) : CChar := (c, { origin := .soft, quoted := true })

/-- `Logical input line ended rest`: the input begins with the line, in which a backslash quotes the
next character and a backslash and a newline are nothing; `ended` is whether the line ends with a
newline (or with the end of the input); after it comes the rest. -/
inductive Logical : List Char → CWord → Bool → List Char → Prop
  | eof : Logical [] [] false []
  | newline (t : List Char) : Logical ('\n' :: t) [] true t
  | plain (c : Char) (t : List Char) (w : CWord) (e : Bool) (r : List Char) :
      c ≠ '\n' → c ≠ '\\' → Logical t w e r → Logical (c :: t) (plain c :: w) e r
  | escaped (c : Char) (t : List Char) (w : CWord) (e : Bool) (r : List Char) :
      c ≠ '\n' → Logical t w e r → Logical ('\\' :: c :: t) (quoted c :: w) e r
  | continued (t : List Char) (w : CWord) (e : Bool) (r : List Char) :
      Logical t w e r → Logical ('\\' :: '\n' :: t) w e r
  | lone : Logical ['\\'] [] false []

/-- The same for the `-r` option: a backslash is a character like others. -/
inductive Raw : List Char → CWord → Bool → List Char → Prop
  | eof : Raw [] [] false []
  | newline (t : List Char) : Raw ('\n' :: t) [] true t
  | plain (c : Char) (t : List Char) (w : CWord) (e : Bool) (r : List Char) :
      c ≠ '\n' → Raw t w e r → Raw (c :: t) (plain c :: w) e r

/-- `Remainder … w k rest`: `rest` is the part of the line `w` from its field number `k` (counted
from zero) on, without the separating white space at the end of the line: the fields before it
are the first `k` ones, the fields in it are the other ones. -/
def Remainder (space : Char → Bool) (emptylast : Bool) (ifs : List Char) (w : CWord) (k : Nat)
    (rest : CWord) : Prop :=
  ∃ before white, w = before ++ rest ++ white ∧
    (∀ c ∈ white, splittable ifs c ∧ space c.1 = true) ∧
    (∀ c ∈ rest.head?, ¬ (splittable ifs c ∧ space c.1 = true)) ∧
    (∀ c ∈ rest.getLast?, ¬ (splittable ifs c ∧ space c.1 = true)) ∧
    fields space false ifs before = (fields space emptylast ifs w).take k ∧
    fields space emptylast ifs (rest ++ white) = (fields space emptylast ifs w).drop k

/-- The value of the last variable, which is not an array; `k` is the number of the other
variables: nothing if there are no more fields, the field if there is one more, the whole remainder
if there are several. -/
def LastScalar (space : Char → Bool) (emptylast : Bool) (ifs : List Char) (w : CWord) (k : Nat)
    (v : List Char) : Prop :=
  match (fields space emptylast ifs w).drop k with
  | [] => v = []
  | [f] => v = text f
  | _ => ∃ rest, Remainder space emptylast ifs w k rest ∧ v = text rest

/-- The value of the last variable as an array: the remaining fields; but one empty field is
none. -/
def LastArray (space : Char → Bool) (emptylast : Bool) (ifs : List Char) (w : CWord) (k : Nat)
    (vs : List (List Char)) : Prop :=
  match (fields space emptylast ifs w).drop k with
  | [[]] => vs = []
  | fs => vs = fs.map text

/-- The values that the variables get when the line is `w`: each variable but the last one gets one
field, or nothing if there are not enough fields. -/
inductive Assigned (space : Char → Bool) (emptylast : Bool) (ifs : List Char) (w : CWord) :
    Bool → List (List Char) → List (List Char × Value) → Prop
  | scalar (init : List (List Char)) (inits : List (List Char)) (name v : List Char) :
      inits.length = init.length →
      (∀ i (_ : i < inits.length),
        inits[i] = ((fields space emptylast ifs w)[i]?.map text).getD []) →
      LastScalar space emptylast ifs w init.length v →
      Assigned space emptylast ifs w false (init ++ [name])
        ((init.zip (inits.map .scalar)) ++ [(name, .scalar v)])
  | array (init : List (List Char)) (inits : List (List Char)) (name : List Char)
      (vs : List (List Char)) :
      inits.length = init.length →
      (∀ i (_ : i < inits.length),
        inits[i] = ((fields space emptylast ifs w)[i]?.map text).getD []) →
      LastArray space emptylast ifs w init.length vs →
      Assigned space emptylast ifs w true (init ++ [name])
        ((init.zip (inits.map .scalar)) ++ [(name, .array vs)])

end Yash.Read.Spec
