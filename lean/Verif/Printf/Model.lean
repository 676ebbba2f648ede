/-!
# The echo and printf built-ins (builtins/printf.c)

* A wide character is written as bytes by `enc` (`wcrtomb`; `none` is EILSEQ).  Encodings with shift
  states are not modelled, so the calls that only return to the initial state write nothing.
* The C library is the structure `Lib`: how it reads numbers (`wcstoimax`, `wcstoumax`, `wcstold`)
  and how it formats a single value (`vsnprintf`).
* The string buffers are lists (see C03 for how buffers grow).
* Writing to the standard output always succeeds; the result is what is written and the exit status.
* The options of printf (only `--help`) are parsed before; `args` are the operands.
-/
set_option autoImplicit false

namespace Yash.Printf

abbrev Byte := UInt8

/-- util.h:268-269 `TO_CHAR`. -/
def toChar (value : Nat) : Byte := UInt8.ofNat value

/-- Converts a number of octal digits, at most `n`, from the beginning of a string: the loops at
builtins/printf.c:250-253 and 398-401. -/
def octal : Nat → Nat → List Char → Nat × List Char
  | 0, value, s => (value, s)
  | _ + 1, value, [] => (value, [])
  | n + 1, value, c :: s =>
    if '0' ≤ c ∧ c ≤ '7' then octal n (value * 8 + (c.toNat - '0'.toNat)) s
    else (value, c :: s)

theorem octal_length (n v : Nat) (s : List Char) : (octal n v s).2.length ≤ s.length := by
  induction n generalizing v s with
  | zero => simp [octal]
  | succ n ih =>
    cases s with
    | nil => simp [octal]
    | cons c s =>
      unfold octal
      split
      · exact Nat.le_trans (ih _ _) (Nat.le_succ _)
      · simp

/-- builtins/printf.c:228-242: the escapes of echo that stand for a character. -/
def echoEscape : Char → Option Char
  | 'a' => some '\x07'
  | 'b' => some '\x08'
  | 'e' => some '\x1b'
  | 'f' => some '\x0c'
  | 'n' => some '\n'
  | 'r' => some '\r'
  | 't' => some '\t'
  | 'v' => some '\x0b'
  | '\\' => some '\\'
  | _ => none

/-- Puts bytes before the result of the rest of a string. -/
def prepend (b : Option (List Byte)) (r : Option (List Byte × Bool)) : Option (List Byte × Bool) :=
  match b, r with
  | some b, some (out, e) => some (b ++ out, e)
  | _, _ => none

/-- builtins/printf.c:216-264 `echo_parse_escape`: the bytes and whether the result is `PR_OK_END`;
`none` is `PR_ERROR`. -/
def echoParseEscape (enc : Char → Option (List Byte)) : List Char → Option (List Byte × Bool)
  | [] => some ([], false)
  | c :: s =>
    if c ≠ '\\' then prepend (enc c) (echoParseEscape enc s)
    else
      match s with
      | [] => prepend (enc c) (echoParseEscape enc [])
      | d :: s' =>
        match echoEscape d with
        | some k => prepend (enc k) (echoParseEscape enc s')
        | none =>
          if d = 'c' then some ([], true)
          else if d = '0' then
            prepend (some [toChar (octal 3 0 s').1]) (echoParseEscape enc (octal 3 0 s').2)
          else prepend (enc c) (echoParseEscape enc (d :: s'))
termination_by s => s.length
decreasing_by
  all_goals simp_wf
  all_goals first
    | omega
    | (have := octal_length 3 0 s'; omega)

/-- strbuf.c:184-246 `sb_wcscat`: `none` if a character cannot be converted. -/
def wcscat (enc : Char → Option (List Byte)) : List Char → Option (List Byte)
  | [] => some []
  | c :: s =>
    match enc c, wcscat enc s with
    | some b, some out => some (b ++ out)
    | _, _ => none

/-- builtins/printf.c:110-130: `escape`, `noption` and `eoption` as chosen by `$ECHO_STYLE`. -/
def echoStyle : Option Char → Bool × Bool × Bool
  | some 'B' | some 'b' => (false, true, false)
  | some 'G' | some 'g' => (false, true, true)
  | some 'Z' | some 'z' => (true, true, true)
  | some 'D' | some 'd' => (true, true, false)
  | some 'R' | some 'r' => (false, false, false)
  | _ => (true, false, false)

/-- builtins/printf.c:141-148: the letters of one option argument. -/
def echoLetters : List Char → Bool × Bool → Bool × Bool
  | [], f => f
  | 'n' :: s, (_, escape) => echoLetters s (true, escape)
  | 'e' :: s, (nonewline, _) => echoLetters s (nonewline, true)
  | 'E' :: s, (nonewline, _) => echoLetters s (nonewline, false)
  | _ :: s, f => echoLetters s f

/-- builtins/printf.c:134-149: `nonewline`, `escape` and the operands that remain. -/
def echoOptions : List (List Char) → Bool × Bool → Bool × Bool × List (List Char)
  | ('-' :: c :: s) :: args, f =>
    if (c :: s).all (fun c => c = 'n' || c = 'e' || c = 'E') then
      echoOptions args (echoLetters (c :: s) f)
    else (f.1, f.2, ('-' :: c :: s) :: args)
  | args, f => (f.1, f.2, args)

/-- builtins/printf.c:132-155: all of option parsing. -/
def echoParse (style : Bool × Bool × Bool) (args : List (List Char)) :
    Bool × Bool × List (List Char) :=
  if style.2.2 then echoOptions args (false, style.1)
  else if style.2.1 then
    match args with
    | a :: args' => if a = ['-', 'n'] then (true, style.1, args') else (false, style.1, args)
    | [] => (false, style.1, [])
  else (false, style.1, args)

/-- builtins/printf.c:166-176: one operand. -/
def echoOne (enc : Char → Option (List Byte)) (escape : Bool) (a : List Char) :
    Option (List Byte × Bool) :=
  if escape then echoParseEscape enc a else (wcscat enc a).map fun b => (b, false)

/-- builtins/printf.c:164-186: the loop over the operands. -/
def echoLoop (enc : Char → Option (List Byte)) (escape : Bool) :
    List (List Char) → Option (List Byte × Bool)
  | [] => some ([], false)
  | [a] => echoOne enc escape a
  | a :: b :: args =>
    match echoOne enc escape a with
    | none => none
    | some (out, true) => some (out, true)
    | some (out, false) => prepend (some out) (prepend (enc ' ') (echoLoop enc escape (b :: args)))

/-- What is written to the standard output, and the exit status. -/
structure Result where
  out : List Byte
  status : Nat
deriving DecidableEq, Repr

/-- builtins/printf.c:188-190: the newline. -/
def echoEnd (enc : Char → Option (List Byte)) (nonewline : Bool) :
    Option (List Byte × Bool) → Option (List Byte)
  | none => none
  | some (out, true) => some out
  | some (out, false) =>
    if nonewline then some out
    else
      match enc '\n' with
      | some b => some (out ++ b)
      | none => none

/-- builtins/printf.c:100-209 `echo_builtin`; `style` is the value of `$ECHO_STYLE`. -/
def echo (enc : Char → Option (List Byte)) (style : Option (List Char)) (args : List (List Char)) :
    Result :=
  let p := echoParse (echoStyle (style.bind List.head?)) args
  match echoEnd enc p.1 (echoLoop enc p.2.1 p.2.2) with
  | some out => ⟨out, 0⟩
  | none => ⟨[], 1⟩

/-! ## printf -/

/-- A value given to the `printf` function of the C library; `F` is the type `long double`. -/
inductive Value (F : Type) where
  | str (s : List Char)
  | chr (c : Char)
  | int (v : Int)
  | uint (v : Nat)
  | float (v : F)

/-- The functions of the C library: those that read a number tell its value, what follows it, and
whether `errno` is set.  `format spec value` is what `vsnprintf` writes. -/
structure Lib (F : Type) where
  enc : Char → Option (List Byte)
  imax : List Char → Int × List Char × Bool
  umax : List Char → Nat × List Char × Bool
  float : List Char → F × List Char × Bool
  format : List Char → Value F → Option (List Byte)

/-- builtins/printf.c:48-63 `struct format_T`; `max = none` is `ULONG_MAX`. -/
inductive Item where
  | percent
  | raw (value : List Byte)
  | str (convspec : List Char)
  | chr (convspec : List Char)
  | int (convspec : List Char)
  | uint (convspec : List Char)
  | float (convspec : List Char)
  | echo (left : Bool) (width : Nat) (max : Option Nat)
deriving DecidableEq, Repr

/-- `iswdigit` -/
def isDigit (c : Char) : Bool := '0' ≤ c && c ≤ '9'

/-- The characters of the loop at builtins/printf.c:456-470. -/
def isFlag (c : Char) : Bool := c = '#' || c = '0' || c = '-' || c = '+' || c = ' '

/-- `strtoul` for a string that begins with neither a space nor a sign; no overflow. -/
def strtoul (s : List Char) : Nat :=
  s.foldl (fun n c => n * 10 + (c.toNat - '0'.toNat)) 0

/-- builtins/printf.c:563-603 `printf_parse_percent_b`; `spec` is the contents of the buffer after
the percent sign, `none` is a violated assertion. -/
def parsePercentB (spec : List Char) : Option Item :=
  let left := (spec.takeWhile isFlag).any (· = '-')
  let rest := spec.dropWhile isFlag
  let width := strtoul (rest.takeWhile isDigit)
  match rest.dropWhile isDigit with
  | '.' :: rest =>
    if rest.dropWhile isDigit = [] then
      some (.echo left width (some (strtoul (rest.takeWhile isDigit))))
    else none
  | [] => some (.echo left width none)
  | _ => none

/-- builtins/printf.c:476-481: the precision and what follows it. -/
def precision : List Char → List Char × List Char
  | '.' :: s => ('.' :: s.takeWhile isDigit, s.dropWhile isDigit)
  | s => ([], s)

/-- builtins/printf.c:483-549: the conversion specifier `c`; `spec` is the contents of the buffer
after the percent sign.  `none` is an error. -/
def convert (hash zero : Bool) (spec : List Char) (c : Char) : Option Item :=
  if c = 'd' || c = 'i' then
    if hash then none else some (.int ('%' :: spec ++ ['j', c]))
  else if c = 'u' then
    if hash then none else some (.uint ('%' :: spec ++ ['j', c]))
  else if c = 'o' || c = 'x' || c = 'X' then some (.uint ('%' :: spec ++ ['j', c]))
  else if c = 'f' || c = 'F' || c = 'e' || c = 'E' || c = 'g' || c = 'G' then
    some (.float ('%' :: spec ++ ['L', c]))
  else if c = 'c' then
    if hash || zero then none else some (.chr ('%' :: spec ++ ['l', c]))
  else if c = 's' then
    if hash || zero then none else some (.str ('%' :: spec ++ ['l', c]))
  else if c = 'b' then
    if hash || zero then none else parsePercentB spec
  else if c = '%' then
    if spec ≠ [] then none else some .percent
  else none

/-- builtins/printf.c:434-558 `printf_parse_percent`; the argument is what follows the percent
sign. -/
def parsePercent (s : List Char) : Option (Item × List Char) :=
  let flags := s.takeWhile isFlag
  let s := s.dropWhile isFlag
  let width := s.takeWhile isDigit
  let p := precision (s.dropWhile isDigit)
  match p.2 with
  | [] => none
  | c :: rest =>
    match convert (flags.any (· = '#')) (flags.any (· = '0')) (flags ++ width ++ p.1) c with
    | some item => some (item, rest)
    | none => none

theorem dropWhile_length (p : Char → Bool) (s : List Char) :
    (s.dropWhile p).length ≤ s.length := by
  induction s with
  | nil => simp
  | cons c s ih =>
    rw [List.dropWhile_cons]
    split
    · exact Nat.le_trans ih (Nat.le_succ _)
    · simp

theorem precision_length (s : List Char) : (precision s).2.length ≤ s.length := by
  unfold precision
  split
  · exact Nat.le_trans (dropWhile_length _ _) (Nat.le_succ _)
  · simp

theorem parsePercent_length (s : List Char) (i : Item) (r : List Char)
    (h : parsePercent s = some (i, r)) : r.length < s.length := by
  simp only [parsePercent] at h
  split at h
  · cases h
  · rename_i c rest hp
    split at h
    · cases h
      have h1 := dropWhile_length isFlag s
      have h2 := dropWhile_length isDigit (s.dropWhile isFlag)
      have h3 := precision_length ((s.dropWhile isFlag).dropWhile isDigit)
      rw [hp] at h3
      simp only [List.length_cons] at h3
      omega
    · cases h

/-- builtins/printf.c:375-390: the escapes of printf that stand for a character. -/
def formatEscape : Char → Option Byte
  | 'a' => some 7
  | 'b' => some 8
  | 'f' => some 12
  | 'n' => some 10
  | 'r' => some 13
  | 't' => some 9
  | 'v' => some 11
  | '\\' => some 92
  | '\"' => some 34
  | '\'' => some 39
  | _ => none

/-- builtins/printf.c:345-358 `MAKE_STRING`. -/
def makeString (buf : List Byte) (items : List Item) : List Item :=
  if buf.length > 0 then .raw buf :: items else items

/-- builtins/printf.c:343-425 `printf_parse_format`; `none` is an error. -/
def parseFormat (enc : Char → Option (List Byte)) (buf : List Byte) :
    List Char → Option (List Item)
  | [] => some (makeString buf [])
  | c :: s =>
    if c = '%' then
      match h : parsePercent s with
      | none => none
      | some (item, rest) => (parseFormat enc [] rest).map fun l => makeString buf (item :: l)
    else if c = '\\' then
      match s with
      | [] => (enc c).bind fun b => parseFormat enc (buf ++ b) []
      | d :: s' =>
        match formatEscape d with
        | some b => parseFormat enc (buf ++ [b]) s'
        | none =>
          if '0' ≤ d ∧ d ≤ '7' then
            parseFormat enc (buf ++ [toChar (octal 3 0 (d :: s')).1]) (octal 3 0 (d :: s')).2
          else (enc c).bind fun b => parseFormat enc (buf ++ b) (d :: s')
    else (enc c).bind fun b => parseFormat enc (buf ++ b) s
termination_by s => s.length
decreasing_by
  all_goals simp_wf
  all_goals first
    | omega
    | (have := parsePercent_length _ _ _ h; omega)
    | (have := octal_length 3 0 (d :: s'); simp only [List.length_cons] at this; omega)

/-- What `printf_printf` does: the bytes added to the buffer, whether the argument is used, whether
the result is `PR_OK_END`, and whether no error message was printed. -/
structure Step where
  out : List Byte
  used : Bool
  ended : Bool
  valid : Bool

/-- builtins/printf.c:676-697 `printf_parse_integer` for a signed number. -/
def parseInt {F : Type} (lib : Lib F) (arg : List Char) : Int × Bool :=
  match arg with
  | '"' :: s | '\'' :: s => ((s.headD '\x00').toNat, true)
  | _ =>
    let r := lib.imax arg
    (r.1, !(r.2.2 || arg.isEmpty || !r.2.1.isEmpty))

/-- builtins/printf.c:676-697 `printf_parse_integer` for an unsigned number. -/
def parseUint {F : Type} (lib : Lib F) (arg : List Char) : Nat × Bool :=
  match arg with
  | '"' :: s | '\'' :: s => ((s.headD '\x00').toNat, true)
  | _ =>
    let r := lib.umax arg
    (r.1, !(r.2.2 || arg.isEmpty || !r.2.1.isEmpty))

/-- builtins/printf.c:715-716: the precision. -/
def truncate (max : Option Nat) (sub : List Byte) : List Byte :=
  match max with
  | some m => if m < sub.length then sub.take m else sub
  | none => sub

/-- builtins/printf.c:718-729: the width. -/
def padTo (left : Bool) (width : Nat) (sub : List Byte) : List Byte :=
  if width ≤ sub.length then sub
  else if left then sub ++ List.replicate (width - sub.length) 32
  else List.replicate (width - sub.length) 32 ++ sub

/-- builtins/printf.c:701-733 `printf_print_escape` -/
def printEscape (enc : Char → Option (List Byte)) (left : Bool) (width : Nat) (max : Option Nat)
    (s : List Char) : Option (List Byte × Bool) :=
  (echoParseEscape enc s).map fun r => (padTo left width (truncate max r.1), r.2)

/-- builtins/printf.c:607-673 `printf_printf`; `none` is `PR_ERROR`. -/
def printItem {F : Type} (lib : Lib F) (item : Item) (arg : Option (List Char)) : Option Step :=
  match item with
  | .percent => some ⟨[37], false, false, true⟩
  | .raw value => some ⟨value, false, false, true⟩
  | .str spec =>
    (lib.format spec (.str (arg.getD []))).map fun b => ⟨b, arg.isSome, false, true⟩
  | .chr spec =>
    match arg with
    | some (c :: _) => (lib.format spec (.chr c)).map fun b => ⟨b, true, false, true⟩
    | _ => some ⟨[], false, false, true⟩
  | .int spec =>
    let r := parseInt lib (arg.getD ['0'])
    (lib.format spec (.int r.1)).map fun b => ⟨b, arg.isSome, false, r.2⟩
  | .uint spec =>
    let r := parseUint lib (arg.getD ['0'])
    (lib.format spec (.uint r.1)).map fun b => ⟨b, arg.isSome, false, r.2⟩
  | .float spec =>
    let a := arg.getD ['0']
    let r := lib.float a
    (lib.format spec (.float r.1)).map fun b =>
      ⟨b, arg.isSome, false, !(r.2.2 || a.isEmpty || !r.2.1.isEmpty)⟩
  | .echo left width max =>
    (printEscape lib.enc left width max (arg.getD [])).map fun r => ⟨r.1, arg.isSome, r.2, true⟩

/-- The state of the loop of `printf_builtin`: what has been added to the buffer, the operands from
`xoptind` on, whether the loop was left, whether there was no error message. -/
structure Pass where
  out : List Byte
  rest : List (List Char)
  ended : Bool
  valid : Bool

/-- builtins/printf.c:308-314: the inner loop. -/
def pass {F : Type} (lib : Lib F) : List Item → List (List Char) → Option Pass
  | [], args => some ⟨[], args, false, true⟩
  | item :: items, args =>
    match printItem lib item args.head? with
    | none => none
    | some r =>
      let args' := if r.used then args.tail else args
      if r.ended then some ⟨r.out, args', true, r.valid⟩
      else
        match pass lib items args' with
        | none => none
        | some p => some ⟨r.out ++ p.out, p.rest, p.ended, r.valid && p.valid⟩

theorem pass_length {F : Type} (lib : Lib F) (items : List Item) (args : List (List Char))
    (p : Pass) (h : pass lib items args = some p) : p.rest.length ≤ args.length := by
  induction items generalizing args p with
  | nil => simp only [pass] at h; cases h; simp
  | cons i items ih =>
    simp only [pass] at h
    split at h
    · cases h
    · rename_i r _
      have ht : (if r.used = true then args.tail else args).length ≤ args.length := by
        split
        · simp
        · exact Nat.le_refl _
      split at h
      · cases h; exact ht
      · split at h
        · cases h
        · rename_i q hq
          cases h
          exact Nat.le_trans (ih _ q hq) ht

/-- builtins/printf.c:306-315: the outer loop; what is added to the buffer and whether there was no
error message. -/
def passes {F : Type} (lib : Lib F) (items : List Item) (args : List (List Char)) :
    Option (List Byte × Bool) :=
  match h : pass lib items args with
  | none => none
  | some p =>
    if p.ended then some (p.out, p.valid)
    else if hr : p.rest ≠ [] ∧ p.rest.length ≠ args.length then
      match passes lib items p.rest with
      | none => none
      | some (out, valid) => some (p.out ++ out, p.valid && valid)
    else some (p.out, p.valid)
termination_by args.length
decreasing_by
  have := pass_length _ _ _ _ h
  omega

/-- builtins/printf.c:277-337 `printf_builtin` -/
def printf {F : Type} (lib : Lib F) : List (List Char) → Result
  | [] => ⟨[], 2⟩
  | format :: args =>
    match parseFormat lib.enc [] format with
    | none => ⟨[], 1⟩
    | some items =>
      match passes lib items args with
      | none => ⟨[], 1⟩
      | some (out, valid) => ⟨out, if valid then 0 else 1⟩

end Yash.Printf
