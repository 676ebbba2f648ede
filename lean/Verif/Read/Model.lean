import Verif.Expand.FieldSplit
/-!
# Model of the `read` built-in, `variable.c` lines 2722-3001

* The input is the text that has not been read yet; `read_one_line` takes the characters up to and
  including the next newline (C65 shows that it does, for text without null characters).  Errors of
  reading are left out, as are the prompt and line-editing.
* The options are already parsed (C50).
* The result is the list of the assignments that `read` makes, in order, and what `set_variable` and
  `set_array` do with them is a parameter (C23, C24).
-/
set_option autoImplicit false

namespace Yash.Read

open Yash.Expand

/-- What is assigned to a variable. -/
inductive Value where
  | scalar (v : List Char)
  | array (vs : List (List Char))
deriving DecidableEq, Repr

/-- The category of a character that may separate fields (variable.c:2867). -/
abbrev soft : CC := { origin := .soft }

/-- The category of a character after a backslash (variable.c:2972). -/
abbrev softQuoted : CC := { origin := .soft, quoted := true }

/-- variable.c:2932-2940 `read_one_line`: the line and the rest of the input. -/
def readOneLine : List Char → List Char × List Char
  | [] => ([], [])
  | c :: t => if c = '\n' then ([c], t) else (c :: (readOneLine t).1, (readOneLine t).2)

/-- variable.c:2947-2975 `unescape_line`: the characters with their categories, and whether the
line is complete. -/
def unescapeLine : List Char → CWord × Bool
  | [] => ([], true)
  | '\\' :: [] => ([], true)
  | '\\' :: c :: l =>
    if c = '\n' then ([], false) else ((c, softQuoted) :: (unescapeLine l).1, (unescapeLine l).2)
  | c :: l => ((c, soft) :: (unescapeLine l).1, (unescapeLine l).2)

theorem readOneLine_length : ∀ t : List Char,
    (readOneLine t).1.length + (readOneLine t).2.length = t.length
  | [] => rfl
  | c :: t => by
    rw [readOneLine]
    split
    · simp; omega
    · have := readOneLine_length t
      simp; omega

/-- variable.c:2843-2880 `read_with_prompt`: what is added to `buf` and `cc`, and the rest of the
input. -/
def readWithPrompt (raw : Bool) (t : List Char) : CWord × List Char :=
  let line := (readOneLine t).1
  let rest := (readOneLine t).2
  if raw then (line.map fun c => (c, soft), rest)
  else if h : (unescapeLine line).2 = true then ((unescapeLine line).1, rest)
  else
    let more := readWithPrompt raw rest
    ((unescapeLine line).1 ++ more.1, more.2)
termination_by t.length
decreasing_by
  have h1 := readOneLine_length t
  have h2 : (readOneLine t).1 ≠ [] := by
    intro h0
    apply h
    show (unescapeLine (readOneLine t).1).2 = true
    rw [h0]; rfl
  have h3 : (readOneLine t).1.length ≠ 0 := fun h => h2 (List.eq_nil_of_length_eq_zero h)
  omega

/-- variable.c:2774-2782: removes the newline; whether there was none. -/
def chomp (buf : CWord) : CWord × Bool :=
  match buf.getLast? with
  | some (c, _) => if c = '\n' then (buf.dropLast, false) else (buf, true)
  | none => (buf, true)

/-- variable.c:2797-2801: empty fields are added until there is one for each variable. -/
def padFields (count : Nat) (list : List Span) : List Span :=
  list ++ List.replicate (count - list.length) (0, 0)

/-- variable.c:2980-3000 `assign_array`: the values. -/
def arrayValues (fields : List (List Char)) : List (List Char) :=
  match fields with
  | [[]] => []
  | fs => fs

/-- variable.c:2814-2826: the value for the last variable.  `none` means that the code reads beyond
the end of the list of fields or outside of the string. -/
def lastValue (array : Bool) (count : Nat) (buf : CWord) (list : List Span) (tail : Nat) :
    Option Value :=
  if array then
    some (Value.array (arrayValues ((list.drop (count - 1)).map fun s => text (slice buf s))))
  else
    match list[count - 1]? with
    | none => none
    | some (a, b) =>
      let e := if count < list.length then tail else b
      if a ≤ e then some (Value.scalar (text (slice buf (a, e)))) else none

/-- variable.c:2804-2826: the values for the variables. -/
def values (array : Bool) (count : Nat) (buf : CWord) (list : List Span) (tail : Nat) :
    Option (List Value) :=
  let init := (List.range (count - 1)).mapM fun i =>
    list[i]?.map fun s => Value.scalar (text (slice buf s))
  match init, lastValue array count buf list tail with
  | some init, some last => some (init ++ [last])
  | _, _ => none

/-- The variables that `extract_fields` depends on: locale, option `emptylastfield`, `$IFS`. -/
structure Setting where
  locale : Locale
  emptylast : Bool
  ifs : Option (List Char)

/-- The result of the built-in: the assignments, whether the end of the input came before a
newline, and the rest of the input. -/
structure Outcome where
  assigns : List (List Char × Value)
  eof : Bool
  rest : List Char
deriving DecidableEq, Repr

/-- variable.c:2764-2826: the built-in after its operands have been checked. -/
def run (S : Setting) (array raw : Bool) (names : List (List Char)) (t : List Char) :
    Option Outcome :=
  let input := readWithPrompt raw t
  let buf := (chomp input.1).1
  let ext := extractFields S.locale S.emptylast (S.ifs.getD defaultIfs) buf
  let list := padFields names.length ext.1
  match values array names.length buf list ext.2 with
  | none => none
  | some vs => some ⟨names.zip vs, (chomp input.1).2, input.2⟩

/-- What the user sees: an error of usage (nothing is read) or the outcome. -/
inductive Action where
  | usage
  | invalidName
  | done (o : Outcome)
deriving DecidableEq, Repr

/-- variable.c:2722-2833 `read_builtin`; 2752-2760: the operands are checked before anything is
read. -/
def readBuiltin (S : Setting) (array raw : Bool) (names : List (List Char)) (t : List Char) :
    Option Action :=
  if names = [] then some .usage
  else if names.any (·.contains '=') then some .invalidName
  else (run S array raw names t).map .done

/-- variable.c:2805-2826 with `set_variable` and `set_array`: makes the assignments in order.  The
flag is whether all of them were successful (variable.c:2831). -/
def assignAll {σ : Type} (set : σ → List Char → Value → σ × Bool) :
    List (List Char × Value) → σ → σ × Bool
  | [], s => (s, true)
  | (n, v) :: l, s =>
    let r := set s n v
    let r' := assignAll set l r.1
    (r'.1, r.2 && r'.2)

/-- variable.c:2722-2833: the whole built-in: the variables afterwards, whether the exit status is
zero (variable.c:2831-2832), and the rest of the input. -/
def command {σ : Type} (set : σ → List Char → Value → σ × Bool) (S : Setting) (array raw : Bool)
    (names : List (List Char)) (s : σ) (t : List Char) : Option (σ × Bool × List Char) :=
  match readBuiltin S array raw names t with
  | none => none
  | some (.done o) =>
    let r := assignAll set o.assigns s
    some (r.1, !o.eof && r.2, o.rest)
  | some _ => some (s, false, t)

end Yash.Read
