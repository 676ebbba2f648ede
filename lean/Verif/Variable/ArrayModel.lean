import Verif.Variable.Map
/-!
# Model of the element operations of the built-ins `array` and `shift` (variable.c)

Elements of a list of words are changed.  A `long` is an integer; none of the sums and differences
below can leave its range, because an array has at most `LONG_MAX` elements.  The conversion of index
operands to numbers (`xwcstol`) is the parameter `num`.  `none` means that an error is reported and
nothing is changed.
-/
set_option autoImplicit false

namespace Yash.Variable

/-- The conversion of all the operands (the loop in variable.c:2143-2149, without the adjustment). -/
def numbers (num : Word → Option Int) : List Word → Option (List Int)
  | [] => some []
  | w :: ws =>
    match num w with
    | none => none
    | some i =>
      match numbers num ws with
      | none => none
      | some is => some (i :: is)

/-- The adjustment of one index (variable.c:2151-2158). -/
def adjust (len : Nat) (i : Int) : Int := if i ≥ 0 then i - 1 else i + len

/-- One step of an insertion sort: the model of `qsort` with `compare_long`
(variable.c:2162, 2184-2188).  All that is used of `qsort` is that it sorts. -/
def insertSorted (i : Int) : List Int → List Int
  | [] => [i]
  | j :: js => if i ≤ j then i :: j :: js else j :: insertSorted i js

/-- `qsort` -/
def sortInts : List Int → List Int
  | [] => []
  | i :: is => insertSorted i (sortInts is)

/-- The removal loop, with the indices in descending order (variable.c:2169-2178).  `last` is `none`
for the initial `LONG_MIN`, which no adjusted index in range equals. -/
def removeLoop : List Int → Option Int → List Word → List Word
  | [], _, l => l
  | i :: is, last, l =>
    if last = some i then removeLoop is last l
    else if 0 ≤ i ∧ i < l.length then removeLoop is (some i) (l.eraseIdx i.toNat)
    else removeLoop is (some i) l

/-- `array_remove_elements` (variable.c:2132-2182). -/
def removeElements (num : Word → Option Int) (ops : List Word) (vs : List Word) :
    Option (List Word) :=
  match numbers num ops with
  | none => none
  | some is => some (removeLoop (sortInts (is.map (adjust vs.length))).reverse none vs)

/-- The position before which elements are inserted (variable.c:2214-2224). -/
def insertPos (len : Nat) (index : Int) : Nat :=
  let index := if index < 0 then (if index + len + 1 < 0 then 0 else index + len + 1) else index
  if index < len then index.toNat else len

/-- `array_insert_elements` (variable.c:2195-2232). -/
def insertElements (num : Word → Option Int) (op : Word) (ws : List Word) (vs : List Word) :
    Option (List Word) :=
  match num op with
  | none => none
  | some i =>
    let u := insertPos vs.length i
    some (vs.take u ++ ws ++ vs.drop u)

/-- `array_set_element` (variable.c:2238-2277). -/
def setElement (num : Word → Option Int) (op : Word) (w : Word) (vs : List Word) :
    Option (List Word) :=
  match num op with
  | none => none
  | some i =>
    if i < 0 then
      if i + vs.length < 0 then none else some (vs.set (i + vs.length).toNat w)
    else if i > 0 then
      if i - 1 < vs.length then some (vs.set (i - 1).toNat w) else none
    else none

/-- The removal of elements by `shift` (variable.c:2453-2496). -/
def shiftElements (count : Int) (vs : List Word) : Option (List Word) :=
  let abscount := count.natAbs
  if abscount > vs.length then none
  else
    let start := if count ≥ 0 then 0 else vs.length - abscount
    some (vs.take start ++ vs.drop (start + abscount))

end Yash.Variable
