/-!
# Model of xfnmatch.c: pattern matching

Wide strings are lists of characters.  Simplifications:
* The conversion between wide strings and multibyte strings is the identity: the model does not
  cover strings that cannot be converted.
* The C library's `regcomp` and `regexec` are modelled in `Verif.Fnmatch.Regex` for the part of
  basic regular expressions that POSIX defines.
-/
set_option autoImplicit false

namespace Yash.Fnmatch

/-- xfnmatch.h:25-34 `xfnmflags_T` (without `XFNM_compiled`, which is represented by the type of
the compiled pattern). -/
structure Flags where
  shortest : Bool := false
  headonly : Bool := false
  tailonly : Bool := false
  period : Bool := false
  casefold : Bool := false
  headstar : Bool := false
  tailstar : Bool := false
  deriving DecidableEq

/-- `wcsstr`: the text before and after the first occurrence of `sub`. -/
def wcsstr (sub : List Char) : List Char → Option (List Char × List Char)
  | [] => if sub = [] then some ([], []) else none
  | c :: s =>
    if sub <+: c :: s then some ([], (c :: s).drop sub.length)
    else match wcsstr sub s with
      | some (a, b) => some (c :: a, b)
      | none => none

/-- xfnmatch.c:120-156 `is_matching_pattern_bracket`, after the opening bracket; `first` is
`pat == savepat`.  `fuel` is more than the length of the string. -/
def isMatchingBracket : Nat → Bool → List Char → Bool
  | 0, _, _ => false
  | n + 1, first, pat =>
    match pat with
    | [] => false
    | '[' :: r =>
      match r with
      | '.' :: r' =>
        match wcsstr ['.', ']'] r' with
        | none => false
        | some (_, rest) => isMatchingBracket n false rest
      | ':' :: r' =>
        match wcsstr [':', ']'] r' with
        | none => false
        | some (_, rest) => isMatchingBracket n false rest
      | '=' :: r' =>
        match wcsstr ['=', ']'] r' with
        | none => false
        | some (_, rest) => isMatchingBracket n false rest
      | r => isMatchingBracket n false r
    | ']' :: r => if first then isMatchingBracket n false r else true
    | '\\' :: [] => false
    | '\\' :: _ :: r => isMatchingBracket n false r
    | _ :: r => isMatchingBracket n false r

/-- xfnmatch.c:92-115 `is_matching_pattern` -/
def isMatchingPattern : List Char → Bool
  | [] => false
  | '\\' :: [] => false
  | '\\' :: _ :: r => isMatchingPattern r
  | '*' :: _ => true
  | '?' :: _ => true
  | '[' :: r => isMatchingBracket (r.length + 1) true r || isMatchingPattern r
  | _ :: r => isMatchingPattern r

/-- xfnmatch.c:162-175 `is_pathname_matching_pattern`; `buf` is the component before the rest of the
pattern. -/
def isPathnameMatchingPattern (buf : List Char) : List Char → Bool
  | [] => isMatchingPattern buf
  | c :: r =>
    if c = '/' then isMatchingPattern buf || isPathnameMatchingPattern [] r
    else isPathnameMatchingPattern (buf ++ [c]) r

/-- xfnmatch.c:226-257: the literal text after the leading asterisks, and whether it is
followed by asterisks; `none` if the pattern is not literal. -/
def literalText : List Char → Option (List Char × Bool)
  | [] => some ([], false)
  | '?' :: _ => none
  | '*' :: r => if r.dropWhile (· == '*') = [] then some ([], true) else none
  | '[' :: r =>
    if ']' ∈ r then none
    else match literalText r with
      | some (l, ts) => some ('[' :: l, ts)
      | none => none
  | '\\' :: [] => some ([], false)
  | '\\' :: c :: r =>
    match literalText r with
    | some (l, ts) => some (c :: l, ts)
    | none => none
  | c :: r =>
    match literalText r with
    | some (l, ts) => some (c :: l, ts)
    | none => none

/-- xfnmatch.c:215-272 `try_compile_literal` -/
def tryCompileLiteral (pat : List Char) (flags : Flags) : Option (Flags × List Char) :=
  let hs := pat.head? == some '*'
  match literalText (pat.dropWhile (· == '*')) with
  | none => none
  | some (lit, ts) =>
    let f := if hs then { flags with headonly := false, headstar := true } else flags
    let f := if ts then { f with tailonly := false, tailstar := true } else f
    let f :=
      if flags.shortest then
        if flags.headonly then { f with tailstar := false } else { f with headstar := false }
      else f
    some (f, lit)

/-- xfnmatch.c:437-444: the text of a bracketed symbol without backslashes. -/
def stripBackslashes : List Char → List Char
  | [] => []
  | '\\' :: [] => []
  | '\\' :: c :: r => c :: stripBackslashes r
  | c :: r => c :: stripBackslashes r

/-- xfnmatch.c:421-447 `encode_pattern_bracket2`, after the opening bracket: what is appended to the
buffer and the rest of the pattern. -/
def encodeBracket2 (r : List Char) : Option (List Char × List Char) :=
  match r with
  | '.' :: r' =>
    match wcsstr ['.', ']'] r' with
    | none => none
    | some (t, rest) => some (['[', '.'] ++ stripBackslashes t ++ ['.', ']'], rest)
  | ':' :: r' =>
    match wcsstr [':', ']'] r' with
    | none => none
    | some (t, rest) => some (['[', ':'] ++ stripBackslashes t ++ [':', ']'], rest)
  | '=' :: r' =>
    match wcsstr ['=', ']'] r' with
    | none => none
    | some (t, rest) => some (['[', '='] ++ stripBackslashes t ++ ['=', ']'], rest)
  | r => some (['['], r)

/-- xfnmatch.c:449-457 `append_as_collating_symbol` -/
def collatingSymbol (c : Char) : List Char := ['[', '.', c, '.', ']']

/-- xfnmatch.c:376-405: the loop of `encode_pattern_bracket`. -/
def encodeBracketLoop : Nat → List Char → Option (List Char × List Char)
  | 0, _ => none
  | n + 1, pat =>
    match pat with
    | [] => none
    | '[' :: r =>
      match encodeBracket2 r with
      | none => none
      | some (out, r') =>
        match encodeBracketLoop n r' with
        | some (out', rest) => some (out ++ out', rest)
        | none => none
    | '\\' :: [] => none
    | '\\' :: c :: r =>
      match encodeBracketLoop n r with
      | some (out', rest) =>
        some ((if c = '[' ∨ c = '^' ∨ c = '-' ∨ c = ']' then collatingSymbol c else [c]) ++ out', rest)
      | none => none
    | ']' :: r => some ([']'], r)
    | c :: r =>
      match encodeBracketLoop n r with
      | some (out', rest) => some (c :: out', rest)
      | none => none

/-- xfnmatch.c:358-413 `encode_pattern_bracket`, after the opening bracket; `none` for failure. -/
def encodeBracket (pat : List Char) : Option (List Char × List Char) :=
  let n := match pat with
    | '!' :: r => (['^'], r)
    | '^' :: r => (['^'], r)
    | r => ([], r)
  let f := match n.2 with
    | ']' :: r => ([']'], r)
    | r => ([], r)
  match encodeBracketLoop (f.2.length + 1) f.2 with
  | some (out, rest) => some (['['] ++ n.1 ++ f.1 ++ out, rest)
  | none => none

/-- xfnmatch.c:313-349 `encode_pattern`; `fuel` is more than the length of the pattern. -/
def encodePatternN : Nat → List Char → List Char
  | 0, _ => []
  | n + 1, pat =>
    match pat with
    | [] => []
    | '?' :: r => '.' :: encodePatternN n r
    | '*' :: r => '.' :: '*' :: encodePatternN n r
    | '[' :: r =>
      match encodeBracket r with
      | some (out, rest) => out ++ encodePatternN n rest
      | none => '\\' :: '[' :: encodePatternN n r
    | '\\' :: [] => []
    | '\\' :: c :: r =>
      if c = '.' ∨ c = '*' ∨ c = '[' ∨ c = '^' ∨ c = '$' ∨ c = '\\' then
        '\\' :: c :: encodePatternN n r
      else c :: encodePatternN n r
    | c :: r =>
      if c = '.' ∨ c = '^' ∨ c = '$' then '\\' :: c :: encodePatternN n r
      else c :: encodePatternN n r

/-- xfnmatch.c:313-349 `encode_pattern` -/
def encodePattern (pat : List Char) : List Char := encodePatternN (pat.length + 1) pat

end Yash.Fnmatch
