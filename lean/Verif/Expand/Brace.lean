import Verif.Expand.Types
/-!
# Model of brace expansion (expand.c:1202-1521)

Simplifications: pointers into the word are indices; an index out of bounds and a failing `assert`
are `none`.  The stack holds each pushed pair of pointers as one pair (the code keeps its length
even, expand.c:1248-1253).  `long` is an integer in `[lmin, lmax]`, an overflow is `none`.  The
widths `startlen`, `endlen` are `int`s in C; we ignore words longer than `INT_MAX`.
-/
set_option autoImplicit false

namespace Yash.Expand

/-- The range of the C type `long`. -/
structure LongRange where
  lmin : Int
  lmax : Int

/-- Properties of `long` that we rely on (two's complement). -/
structure LongRange.Ok (R : LongRange) : Prop where
  neg : R.lmin = - R.lmax - 1
  pos : 0 < R.lmax

/-- A `long` operation; `none` is undefined behaviour. -/
def LongRange.chk (R : LongRange) (x : Int) : Option Int :=
  if R.lmin ≤ x ∧ x ≤ R.lmax then some x else none

/-! ## Scanning (expand.c:1251-1289) -/

/-- State of the scan: `graph`, `stack` (pairs of the two pushed pointers, top first) and
`pairfound`. -/
structure Scan where
  graph : List (Option Nat)
  stack : List (Nat × Nat)
  pairfound : Bool

/-- expand.c:1257-1289: one iteration of the scanning loop. -/
def scanStep (word : CWord) (s : Scan) (c : CChar) : Option Scan :=
  let n := s.graph.length
  if c.2 = CC.lit then
    if c.1 = '{' then
      some { s with graph := s.graph ++ [none], stack := (n, n) :: s.stack }
    else if c.1 = ',' then
      match s.stack with
      | (o, ci) :: stk =>
        if ci < n then
          some { s with graph := s.graph.set ci (some n) ++ [none], stack := (o, n) :: stk }
        else none
      | [] => some { s with graph := s.graph ++ [none] }
    else if c.1 = '}' then
      match s.stack with
      | (_, ci) :: stk =>
        if ci < n then
          let e := if (word[ci]?).map Prod.fst = some ',' then some n else none
          some { graph := s.graph.set ci (some n) ++ [e], stack := stk, pairfound := true }
        else none
      | [] => some { s with graph := s.graph ++ [none] }
    else some { s with graph := s.graph ++ [none] }
  else some { s with graph := s.graph ++ [none] }

/-- expand.c:1257-1289: the scanning loop. -/
def scanLoop (word : CWord) : CWord → Scan → Option Scan
  | [], s => some s
  | c :: cs, s =>
    match scanStep word s c with
    | some s' => scanLoop word cs s'
    | none => none

/-- expand.c:1305-1308: clears one chain of pointers. -/
def clearChain : Nat → List (Option Nat) → Nat → Option (List (Option Nat))
  | 0, _, _ => none
  | fuel + 1, g, ci =>
    match g[ci]? with
    | none => none
    | some none => some g
    | some (some nx) => clearChain fuel (g.set ci none) nx

/-- expand.c:1301-1310: clears the chains of all braces left in the stack. -/
def clearStack : List (Nat × Nat) → List (Option Nat) → Option (List (Option Nat))
  | [], g => some g
  | (o, _) :: stk, g =>
    match clearChain (g.length + 1) g o with
    | some g' => clearStack stk g'
    | none => none

/-! ## Numeric sequences (expand.c:1405-1521) -/

/-- Decimal digits. -/
def digitVal (c : Char) : Option Nat :=
  if '0' ≤ c ∧ c ≤ '9' then some (c.toNat - '0'.toNat) else none

/-- The value of a digit string. -/
def digitsVal (ds : List Char) : Nat :=
  ds.foldl (fun a c => 10 * a + (digitVal c).getD 0) 0

/-- The C library's `wcstol(s, &end, 10)`: skips white space, accepts a sign and digits; the
result is the value (unclamped), the number of characters consumed and whether `errno` is set to
`ERANGE`.  Without digits nothing is consumed. -/
def wcstol (space : Char → Bool) (R : LongRange) (s : List Char) : Int × Nat × Bool :=
  let sp := s.takeWhile space
  let r := s.dropWhile space
  let (neg, sl, r) :=
    match r with
    | '+' :: r => (false, 1, r)
    | '-' :: r => (true, 1, r)
    | r => (false, 0, r)
  let ds := r.takeWhile (fun c => (digitVal c).isSome)
  if ds = [] then (0, 0, false)
  else
    let v : Int := if neg then - (digitsVal ds : Int) else digitsVal ds
    (v, sp.length + sl + ds.length, decide (¬ (R.lmin ≤ v ∧ v ≤ R.lmax)))

/-- expand.c:1504-1521 `has_leading_zero`: the result and whether `*sign` is set to true. -/
def hasLeadingZero (space : Char → Bool) (s : List Char) : Bool × Bool :=
  let r := s.dropWhile space
  let (r, sign) :=
    match r with
    | '+' :: r => (r, true)
    | '-' :: r => (r, false)
    | r => (r, false)
  (r.head? == some '0', sign)

/-- `wprintf("%0*ld")` and, with `sign`, `wprintf("%0+*ld")`. -/
def fmtLong (sign : Bool) (len : Nat) (v : Int) : List Char :=
  let sg := if v < 0 then ['-'] else if sign then ['+'] else []
  let ds := (Nat.repr v.natAbs).toList
  sg ++ List.replicate (len - sg.length - ds.length) '0' ++ ds

/-- expand.c:1469-1501: the values of the `do`-`while` loop, from `value`; `none` is an overflow.
The measure shows that the loop terminates. -/
def seqLoop (R : LongRange) (stop delta : Int) (value : Int) : Option (List Int) :=
  if h0 : delta = 0 then none   -- excluded by expand.c:1448
  else if 0 ≤ delta then
    match R.chk (R.lmax - delta) with
    | none => none
    | some m =>
      if m < value then some [value]
      else match hv : R.chk (value + delta) with
        | none => none
        | some v' => if v' ≤ stop then (seqLoop R stop delta v').map (value :: ·) else some [value]
  else
    match R.chk (R.lmin - delta) with
    | none => none
    | some m =>
      if m > value then some [value]
      else match hv : R.chk (value + delta) with
        | none => none
        | some v' => if v' ≥ stop then (seqLoop R stop delta v').map (value :: ·) else some [value]
termination_by (if 0 ≤ delta then R.lmax - value else value - R.lmin).toNat
decreasing_by
  · simp only [LongRange.chk] at hv
    split at hv
    · cases hv; split <;> omega
    · cases hv
  · simp only [LongRange.chk] at hv
    split at hv
    · cases hv; split <;> omega
    · cases hv

/-- A parsed numeric sequence. -/
structure SeqParse where
  start : Int
  stop : Int
  delta : Int
  sign : Bool
  len : Nat
  /-- Length of the text up to the closing brace. -/
  bracei : Nat

/-- expand.c:1419-1459: parses the text after the `{`. -/
def seqText (L : Locale) (R : LongRange) (txt : List Char) : Option SeqParse :=
  match wcstol L.space R txt with
  | (start, n1, e1) =>
    if n1 = 0 ∨ e1 = true then none
    else match txt.drop n1 with
      | '.' :: '.' :: t2 =>
        let startlen := if (hasLeadingZero L.space txt).1 then n1 else 0
        match wcstol L.space R t2 with
        | (stop, n2, e2) =>
          if n2 = 0 ∨ e2 = true then none
          else
            let endlen := if (hasLeadingZero L.space t2).1 then n2 else 0
            let sign := (hasLeadingZero L.space txt).2 || (hasLeadingZero L.space t2).2
            match t2.drop n2 with
            | '.' :: '.' :: t3 =>
              match wcstol L.space R t3 with
              | (delta, n3, e3) =>
                if delta = 0 ∨ n3 = 0 ∨ e3 = true then none
                else match t3.drop n3 with
                  | '}' :: _ =>
                    some ⟨start, stop, delta, sign, max startlen endlen, n1 + 2 + n2 + 2 + n3⟩
                  | _ => none
            | '}' :: _ =>
              some ⟨start, stop, if start ≤ stop then 1 else -1, sign, max startlen endlen,
                n1 + 2 + n2⟩
            | _ => none
      | _ => none

/-- expand.c:1419-1466: parses the text after the `{` and validates the categories. -/
def parseSeq (L : Locale) (R : LongRange) (rest : CWord) : Option SeqParse :=
  match seqText L R (text rest) with
  | none => none
  | some p =>
    match rest[p.bracei]? with
    | none => none
    | some c =>
      if c.2 ≠ CC.lit then none
      else if (rest.take p.bracei).any (fun c => c.2.quoted) then none
      else some p

/-- The formatted values (expand.c:1480-1484): characters of hard expansion. -/
def seqWord (p : SeqParse) (v : Int) : CWord :=
  (fmtLong p.sign p.len v).map (fun c => (c, { origin := .hard }))

/-! ## Generation (expand.c:1333-1403) -/

/-- expand.c:1361-1365: from a comma, the index of the closing brace. -/
def skipCommas (word : CWord) (g : List (Option Nat)) : Nat → Nat → Option Nat
  | 0, _ => none
  | fuel + 1, ci =>
    match g[ci]? with
    | some (some nx) =>
      match (word[nx]?).map Prod.fst with
      | some ',' => skipCommas word g fuel nx
      | some '}' => some nx
      | _ => none
    | _ => none

/-- expand.c:1386-1399: the indices of the delimiters in front of the alternatives, from the one at
`ci`. -/
def delims (word : CWord) (g : List (Option Nat)) : Nat → Nat → Option (List Nat)
  | 0, _ => none
  | fuel + 1, ci =>
    match g[ci]? with
    | some (some nx) =>
      match (word[nx]?).map Prod.fst with
      | some ',' => (delims word g fuel nx).map (ci :: ·)
      | some '}' => some [ci]
      | _ => none
    | _ => none

/-- Runs `f` on all the elements and concatenates the results. -/
def collect {α β : Type} (f : α → Option (List β)) : List α → Option (List β)
  | [] => some []
  | a :: l =>
    match f a with
    | none => none
    | some x =>
      match collect f l with
      | none => none
      | some y => some (x ++ y)

/-- expand.c:1340-1403 `generate_brace_expand_results`; the result is the list of words added to
`valuelist`.  Every recursive call or jump increases `ci`, so that `word.length + 1 - ci` is enough
fuel. -/
def gen (L : Locale) (R : LongRange) (word : CWord) (g : List (Option Nat)) :
    Nat → Nat → CWord → Option (List CWord)
  | 0, _, _ => none
  | fuel + 1, ci, buf =>
    match word[ci]? with
    | none => some [buf]
    | some c =>
      match g[ci]? with
      | none => none
      | some none => gen L R word g fuel (ci + 1) (buf ++ [c])
      | some (some nx) =>
        if c.1 = ',' then
          match skipCommas word g (word.length + 1) ci with
          | some k => gen L R word g fuel (k + 1) buf
          | none => none
        else if c.1 = '}' then gen L R word g fuel (ci + 1) buf
        else if c.1 = '{' then
          match (word[nx]?).map Prod.fst with
          | some '}' =>
            match parseSeq L R (word.drop (ci + 1)) with
            | some p =>
              match seqLoop R p.stop p.delta p.start with
              | none => none
              | some vs =>
                collect (fun v => gen L R word g fuel (ci + 1 + p.bracei + 1) (buf ++ seqWord p v)) vs
            | none => gen L R word g fuel (ci + 1) (buf ++ [c])
          | some ',' =>
            match delims word g (word.length + 1) ci with
            | some ds => collect (fun d => gen L R word g fuel (d + 1) buf) ds
            | none => none
          | _ => none
        else none

/-- The quick check (expand.c:1233-1239): a `{` and a `}` after it. -/
def hasBraces (w : CWord) : Bool :=
  ((text w).dropWhile (· != '{')).drop 1 |>.contains '}'

/-- expand.c:1226-1331 `expand_brace`. -/
def expandBrace (L : Locale) (R : LongRange) (word : CWord) : Option (List CWord) :=
  if !hasBraces word then some [word]
  else
    match scanLoop word word { graph := [], stack := [], pairfound := false } with
    | none => none
    | some s =>
      if !s.pairfound then some [word]
      else
        match clearStack s.stack s.graph with
        | none => none
        | some g => gen L R word g (word.length + 1) 0 []

/-- expand.c:1211-1220 `expand_brace_each`. -/
def expandBraceEach (L : Locale) (R : LongRange) (ws : List CWord) : Option (List CWord) :=
  collect (expandBrace L R) ws

end Yash.Expand
