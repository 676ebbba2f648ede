import Verif.Fnmatch.Model
import Verif.Fnmatch.Regex
/-!
# Model of xfnmatch.c: compilation, matching and substitution
-/
set_option autoImplicit false

namespace Yash.Fnmatch

/-- xfnmatch.c:31-37 `xfnmatch_T` -/
inductive Compiled where
  | literal (flags : Flags) (lit : List Char)
  | regex (flags : Flags) (re : Regex)

/-- xfnmatch.c:276-304 `try_compile_regex` -/
def tryCompileRegex (pat : List Char) (flags : Flags) : Option Compiled :=
  let buf := (if flags.headonly then ['^'] else []) ++ encodePattern pat
    ++ (if flags.tailonly then ['$'] else [])
  match regcomp flags.casefold buf with
  | some re => some (.regex flags re)
  | none => none

/-- xfnmatch.c:190-211 `xfnm_compile`.  The assertions on the flags are hypotheses of the theorems
(`Spec.ValidFlags`). -/
def xfnmCompile (pat : List Char) (flags : Flags) : Option Compiled :=
  let flags :=
    if flags.period && (pat.head? == some '.' || pat.head? == some '\\') then
      { flags with period := false }
    else flags
  if flags.casefold then tryCompileRegex pat flags
  else
    match tryCompileLiteral pat flags with
    | some (f, lit) => some (.literal f lit)
    | none => tryCompileRegex pat flags

/-- xfnmatch.c:572-586 `last_wcsstr`: the loop. -/
def lastWcsstrLoop (sub : List Char) : Nat → List Char → Option Nat
  | 0, _ => none
  | n + 1, s =>
    match wcsstr sub s with
    | none => none
    | some (a, _) =>
      match lastWcsstrLoop sub n (s.drop (a.length + 1)) with
      | some k => some (a.length + 1 + k)
      | none => some a.length

/-- xfnmatch.c:572-586 `last_wcsstr` -/
def lastWcsstr (sub s : List Char) : Option Nat :=
  if sub = [] then some s.length else lastWcsstrLoop sub (s.length + 1) s

/-- xfnmatch.c:521-569 `wmatch_literal`; `none` is `MISMATCH`. -/
def wmatchLiteral (f : Flags) (lit s : List Char) : Option (Nat × Nat) :=
  if f.headonly then
    if lit.isPrefixOf s then
      let rest := s.drop lit.length
      if f.tailonly && rest ≠ [] then none
      else some (0, if !f.shortest && f.tailstar then lit.length + rest.length else lit.length)
    else none
  else if f.tailonly then
    if s.length < lit.length then none
    else
      let index := s.length - lit.length
      if s.drop index ≠ lit then none
      else some (if !f.shortest && f.headstar then 0 else index, s.length)
  else
    let ss :=
      if (!f.shortest && f.headstar && !f.tailstar) || (f.shortest && !f.headstar && f.tailstar) then
        lastWcsstr lit s
      else
        match wcsstr lit s with
        | some (a, _) => some a.length
        | none => none
    match ss with
    | none => none
    | some i =>
      some (if f.headstar then 0 else i, if f.tailstar then s.length else i + lit.length)

section
variable (loc : Locale)

/-- xfnmatch.c:653-686 `wmatch_longest` -/
def wmatchLongest (re : Regex) (s : List Char) : Option (Nat × Nat) := regexec loc re s

/-- xfnmatch.c:588-597 `wmatch_headtail`.  The unspecified `end` member is zero. -/
def wmatchHeadtail (re : Regex) (s : List Char) : Option (Nat × Nat) :=
  if (regexec loc re s).isSome then some (0, 0) else none

/-- xfnmatch.c:599-631 `wmatch_shortest_head`: `buf` is what has been tried. -/
def wmatchShortestHead (re : Regex) (buf : List Char) : List Char → Option (Nat × Nat)
  | [] => if (regexec loc re buf).isSome then some (0, buf.length) else none
  | c :: s =>
    if (regexec loc re buf).isSome then some (0, buf.length)
    else wmatchShortestHead re (buf ++ [c]) s

/-- xfnmatch.c:633-651 `wmatch_shortest_tail`: the loop; `i` is the index and `result` the last
result. -/
def wmatchShortestTail (re : Regex) (s : List Char) : Nat → Nat → Option (Nat × Nat) →
    Option (Nat × Nat)
  | 0, _, result => result
  | n + 1, i, result =>
    match wmatchLongest loc re (s.drop i) with
    | none => result
    | some (a, b) =>
      if a + i ≥ s.length then some (a + i, b + i)
      else wmatchShortestTail re s n (a + i + 1) (some (a + i, b + i))

/-- xfnmatch.c:492-517 `xfnm_wmatch` -/
def xfnmWmatch (x : Compiled) (s : List Char) : Option (Nat × Nat) :=
  match x with
  | .literal f lit =>
    if f.period && s.head? == some '.' then none else wmatchLiteral f lit s
  | .regex f re =>
    if f.period && s.head? == some '.' then none
    else if f.headonly && f.tailonly then wmatchHeadtail loc re s
    else if f.shortest then
      if f.headonly then wmatchShortestHead loc re [] s
      else wmatchShortestTail loc re s (s.length + 1) 0 none
    else wmatchLongest loc re s

/-- xfnmatch.c:464-484 `xfnm_match`: whether the result is zero. -/
def xfnmMatch (x : Compiled) (s : List Char) : Bool :=
  match x with
  | .literal f lit =>
    if f.period && s.head? == some '.' then false else (xfnmWmatch loc (.literal f lit) s).isSome
  | .regex f re =>
    if f.period && s.head? == some '.' then false else (regexec loc re s).isSome

/-- The flags of a compiled pattern. -/
def Compiled.flags : Compiled → Flags
  | .literal f _ => f
  | .regex f _ => f

/-- xfnmatch.c:712-720: the loop of `xfnm_subst`; `s` is `&s[i]`. -/
def substLoop (x : Compiled) (repl : List Char) (substall : Bool) : Nat → List Char → List Char
  | 0, s => s
  | n + 1, s =>
    match xfnmWmatch loc x s with
    | none => s
    | some (a, b) =>
      if a ≥ b then s
      else
        s.take a ++ repl ++
          (if substall then substLoop x repl substall n (s.drop b) else s.drop b)

/-- xfnmatch.c:692-721 `xfnm_subst` -/
def xfnmSubst (x : Compiled) (s repl : List Char) (substall : Bool) : List Char :=
  if x.flags.headonly && x.flags.tailonly then
    let result := match x with
      | .regex _ re => wmatchHeadtail loc re s
      | .literal f lit => wmatchLiteral f lit s
    if result.isSome then repl else s
  else substLoop loc x repl (substall && !x.flags.headonly) (s.length + 1) s

/-- xfnmatch.c:736-748 `match_pattern` -/
def matchPattern (s pat : List Char) : Bool :=
  match xfnmCompile pat { headonly := true, tailonly := true } with
  | none => false
  | some x => (xfnmWmatch loc x s).isSome

/-- expand.c:1052-1079 `match_each`, for one string; `head`, `tail` and `longest` are the flags in
`type`. -/
def matchEach (pattern : List Char) (head tail longest : Bool) (s : List Char) : List Char :=
  match xfnmCompile pattern { headonly := head, tailonly := tail, shortest := !longest } with
  | none => s
  | some x =>
    match xfnmWmatch loc x s with
    | none => s
    | some (a, b) => s.take a ++ s.drop (a + (b - a))

/-- expand.c:1087-1106 `subst_each`, for one string. -/
def substEach (pattern subst : List Char) (head tail all : Bool) (s : List Char) : List Char :=
  match xfnmCompile pattern { headonly := head, tailonly := tail } with
  | none => s
  | some x => xfnmSubst loc x s subst all

end

end Yash.Fnmatch
