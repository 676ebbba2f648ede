import Verif.Expand.Quote
/-! # Model of field splitting, `expand.c` lines 1520-1677 -/
set_option autoImplicit false

namespace Yash.Expand

/-- expand.c:1655-1658 `is_ifs_char`. -/
def isIfsChar (ifs : List Char) (c : CChar) : Bool :=
  c.2 == { origin := .soft } && ifs.contains c.1

/-- expand.c:1661-1664 `is_ifs_whitespace`. -/
def isIfsWhitespace (L : Locale) (ifs : List Char) (c : CChar) : Bool :=
  isIfsChar ifs c && L.space c.1

/-- expand.c:1667-1670 `is_non_ifs_char`. -/
def isNonIfsChar (ifs : List Char) (c : CChar) : Bool := !isIfsChar ifs c

/-- A pair of pointers into the input, as indices: start and end of a field. -/
abbrev Span := Nat × Nat

/-- expand.c:1613-1641, the loop of `extract_fields`. `r` is the input from `index` on.  Returns the
spans appended to `dest` and the last value of `ifswhitestartindex`. -/
def extractLoop (ws nonIfs : CChar → Bool) (r : CWord) (index : Nat) (afterfield : Bool)
    (dest : List Span) : List Span × Nat :=
  let r1 := r.dropWhile ws
  let i1 := index + (r.takeWhile ws).length
  let f := r1.takeWhile nonIfs
  if hf : f ≠ [] then
    extractLoop ws nonIfs (r1.dropWhile nonIfs) (i1 + f.length) true (dest ++ [(i1, i1 + f.length)])
  else
    let dest := if afterfield then dest else dest ++ [(i1, i1)]
    match hr : r1 with
    | [] => (dest, index)
    | _ :: r' => extractLoop ws nonIfs r' (i1 + 1) false dest
termination_by r.length
decreasing_by
  · have h1 := length_dropWhile_le ws r
    have h2 : ((r.dropWhile ws).takeWhile nonIfs).length +
        ((r.dropWhile ws).dropWhile nonIfs).length = (r.dropWhile ws).length := by
      rw [← List.length_append, List.takeWhile_append_dropWhile]
    have h3 : ((r.dropWhile ws).takeWhile nonIfs).length ≠ 0 := by
      intro h; exact hf (List.eq_nil_of_length_eq_zero h)
    show ((r.dropWhile ws).dropWhile nonIfs).length < r.length
    omega
  · have h1 := length_dropWhile_le ws r
    have : (r.dropWhile ws).length = r'.length + 1 := by
      have : r.dropWhile ws = _ :: r' := hr
      rw [this]; simp
    omega

/-- expand.c:1602-1652 `extract_fields` for an initially empty `dest`; `emptylast` is
`shopt_emptylastfield`.  The second component is the returned pointer. -/
def extractFields (L : Locale) (emptylast : Bool) (ifs : List Char) (w : CWord) :
    List Span × Nat :=
  let (dest, tail) := extractLoop (isIfsWhitespace L ifs) (isNonIfsChar ifs) w 0 false []
  let dest :=
    if !emptylast || dest.length == 1 then
      match dest.getLast? with
      | some (a, b) => if a = b then dest.dropLast else dest
      | none => dest
    else dest
  (dest, tail)

/-- `xwcsndup(start, end - start)` and the corresponding piece of the category string
(expand.c:1561-1567). -/
def slice (w : CWord) (s : Span) : CWord := (w.drop s.1).take (s.2 - s.1)

/-- expand.c:1529-1577 `fieldsplit` for one word.  The C code has a shortcut that passes the
original word through when there is one field covering it entirely (1551-1555); the slice is the
same list. -/
def fieldsplit1 (L : Locale) (emptylast : Bool) (ifs : List Char) (w : CWord) : List CWord :=
  (extractFields L emptylast ifs w).1.map (slice w)

/-- expand.c:25 `DEFAULT_IFS`. -/
def defaultIfs : List Char := [' ', '\t', '\n']

/-- expand.c:1529-1577 `fieldsplit`; `ifs` is the value of `$IFS`, `none` if unset. -/
def fieldsplit (L : Locale) (emptylast : Bool) (ifs : Option (List Char)) (ws : List CWord) :
    List CWord :=
  ws.flatMap (fieldsplit1 L emptylast (ifs.getD defaultIfs))

end Yash.Expand
