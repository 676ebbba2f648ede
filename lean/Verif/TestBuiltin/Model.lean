/-!
# The `test` (`[`) built-in

Model of `builtins/test.c`. Words are lists of characters without NUL. What the built-in asks the
rest of the system for (files, terminals, options, the locale) is a parameter.
-/
set_option autoImplicit false

namespace Yash.TestBuiltin

abbrev Word := List Char

/-- What `compare_files` looks at in a `struct stat`: identity (device and inode) and
modification time (seconds, nanoseconds). -/
structure FileStat where
  dev : Nat
  ino : Nat
  mtime : Int
  mtimeNsec : Int
  deriving DecidableEq, Repr

/-- The surroundings of the built-in. -/
structure World where
  /-- `iswspace` -/
  isSpace : Char → Bool
  /-- signs and digits are not spaces (C11 7.30.2.1.10) -/
  notSpace : ∀ c ∈ "+-0123456789".toList, isSpace c = false
  /-- `iswalnum` -/
  isAlnum : Char → Bool
  /-- `wcscoll` (only the sign matters) -/
  coll : Word → Word → Int
  /-- `match_regex(s, regex)` -/
  regex : Word → Word → Bool
  /-- `isatty` -/
  isatty : Int → Bool
  /-- `is_valid_option_name`, `option_is_enabled` -/
  optionValid : Word → Bool
  optionEnabled : Word → Bool
  /-- whether `malloc_wcstombs` succeeds -/
  convertible : Word → Bool
  /-- `test_file(type, file)` (test.c 198-263): queries to the file system -/
  file : Char → Word → Bool
  /-- `stat`; `none` when it fails -/
  stat : Word → Option FileStat

/-- Result of a primary: truth value, and whether an error message has been printed. -/
structure Res where
  val : Bool
  err : Bool
  deriving DecidableEq, Repr

/-- C's `!` on a result; messages stay printed. -/
def Res.not (r : Res) : Res := ⟨!r.val, r.err⟩

/-- The value printed an error message; the C function returns 0. -/
def Res.error : Res := ⟨false, true⟩

/-- A result without error message. -/
def Res.ok (b : Bool) : Res := ⟨b, false⟩

/-- Exit_TRUE 0, Exit_FALSE 1, Exit_TESTERROR 2 (test.c 147-149, builtins/test.c enum). -/
def Res.status (r : Res) : Nat := if r.err then 2 else if r.val then 0 else 1

/-- `test_single` (test.c 153-157). -/
def testSingle (a : Word) : Bool := !a.isEmpty

/-- `is_unary_primary` (test.c 479-492). -/
def isUnaryPrimary : Word → Bool
  | ['-', c] =>
    match c with
    | 'b' | 'c' | 'd' | 'e' | 'f' | 'G' | 'g' | 'h' | 'k' | 'L' | 'N' | 'n' | 'O' | 'o' | 'p'
    | 'r' | 'S' | 's' | 't' | 'u' | 'w' | 'x' | 'z' => true
    | _ => false
  | _ => false

/-- `is_binary_primary` (test.c 496-554). -/
def isBinaryPrimary : Word → Bool
  | ['='] | ['=', '~'] => true
  | ['=', '='] | ['=', '=', '='] => true
  | ['!', '='] | ['!', '=', '='] => true
  | '<' :: r | '>' :: r => match r with
    | [] | ['='] => true
    | _ => false
  | '-' :: 'e' :: r => match r with
    | ['f'] | ['q'] => true
    | _ => false
  | '-' :: 'n' :: r | '-' :: 'g' :: r | '-' :: 'l' :: r => match r with
    | ['t'] | ['e'] => true
    | _ => false
  | ['-', 'o', 't'] => true
  | '-' :: 'v' :: r => match r with
    | ['e', 'q'] | ['n', 'e'] => true
    | 'g' :: r | 'l' :: r => match r with
      | ['t'] | ['e'] => true
      | _ => false
    | _ => false
  | _ => false

/-- `is_term_delimiter` (test.c 558-572). -/
def isTermDelimiter : Word → Bool
  | [')'] => true
  | ['-', 'a'] | ['-', 'o'] => true
  | _ => false

/-- Value of a digit character. -/
def digitVal (c : Char) : Nat := c.toNat - 48

/-- Value of a string of digits, as the digit loop of `wcstoimax` computes it. -/
def digitsVal : Word → Nat → Nat
  | [], acc => acc
  | c :: r, acc => digitsVal r (10 * acc + digitVal c)

/-- `iswdigit`: the decimal digits of the basic character set. -/
def isDigit (c : Char) : Bool := '0' ≤ c && c ≤ '9'

/-- The optional sign accepted by `wcstoimax`. -/
def signOf : Word → Bool × Word
  | '-' :: r => (true, r)
  | '+' :: r => (false, r)
  | r => (false, r)

/-- `wcstoimax(s, &end, 10)` with the checks `errno != 0 || s[0] == L'\0' || *end != L'\0'`
(test.c 582-593; C11 7.8.2.4): `none` if the whole string is not an integer in the range of
`intmax_t` (64 bits). Also `xwcstol(s, 10, &v)` (util.c), `long` having 64 bits too. -/
def wcstoimax (W : World) (s : Word) : Option Int :=
  let sd := signOf (s.dropWhile W.isSpace)
  if sd.2.isEmpty then none
  else if sd.2.all isDigit then
    let v : Int := if sd.1 then -(digitsVal sd.2 0 : Int) else digitsVal sd.2 0
    if v < -9223372036854775808 ∨ v > 9223372036854775807 then none else some v
  else none

/-- `xwcstoi(s, 10, &v)` (util.c 140-151). -/
def xwcstoi (W : World) (s : Word) : Option Int :=
  match wcstoimax W s with
  | none => none
  | some v => if v < -2147483648 ∨ v > 2147483647 then none else some v

/-- `compare_integers` (test.c 577-600); `none` when an error message is printed. -/
def compareIntegers (W : World) (left right : Word) : Option Int :=
  match wcstoimax W left with
  | none => none
  | some il =>
    match wcstoimax W right with
    | none => none
    | some ir => some (if il < ir then -1 else if il > ir then 1 else 0)

/-- `wcstoumax(s, &s, 10)` on a string that begins with a digit (C11 7.8.2.4): the value of the
leading digits, saturated at `UINTMAX_MAX`, and the rest. -/
def wcstoumax (s : Word) : Nat × Word :=
  (min (digitsVal (s.takeWhile isDigit) 0) 18446744073709551615, s.dropWhile isDigit)

theorem wcstoumax_length (s : Word) : (wcstoumax s).2.length ≤ s.length :=
  (List.dropWhile_suffix _).length_le

/-- `iswdigit(*s)`, `iswalnum(*s)`: false at the terminating NUL. -/
def atChar (p : Char → Bool) : Word → Bool
  | [] => false
  | c :: _ => p c

/-- The part of the loop body of `compare_versions` that compares numbers (test.c 608-622):
a result, or the remaining strings. -/
def versionNumbers (left right : Word) : Int ⊕ (Word × Word) :=
  if atChar isDigit left && atChar isDigit right then
    let l := wcstoumax left
    let r := wcstoumax right
    if l.1 > r.1 then .inl 1 else if l.1 < r.1 then .inl (-1) else .inr (l.2, r.2)
  else if atChar isDigit left then .inl 1
  else if atChar isDigit right then .inl (-1)
  else .inr (left, right)

theorem versionNumbers_length {left right l r : Word}
    (h : versionNumbers left right = .inr (l, r)) : l.length ≤ left.length := by
  unfold versionNumbers at h
  have := wcstoumax_length left
  split at h
  · dsimp only at h
    split at h
    · cases h
    · split at h
      · cases h
      · cases h; exact this
  · split at h
    · cases h
    · split at h
      · cases h
      · cases h; exact Nat.le_refl _

/-- `compare_versions` (test.c 605-637). -/
def compareVersions (W : World) (left right : Word) : Int :=
  match h : versionNumbers left right with
  | .inl v => v
  | .inr (l, r) =>
    if atChar W.isAlnum l && !atChar W.isAlnum r then 1
    else if !atChar W.isAlnum l && atChar W.isAlnum r then -1
    else if l.head? ≠ r.head? then W.coll l r
    else match hl : l, r with
      | c :: l', _ :: r' => compareVersions W l' r'
      | _, _ => 0
termination_by left.length
decreasing_by
  have := versionNumbers_length h
  simp only [List.length_cons] at this
  omega

/-- `enum filecmp` (test.c 53-55). -/
inductive FileCmp | id | same | newer | older | unknown
  deriving DecidableEq, Repr

/-- `compare_files` (test.c 648-707); `none` when an error message is printed (the C function
then returns FC_UNKNOWN). The system has nanosecond time stamps. -/
def compareFiles (W : World) (left right : Word) : Option FileCmp :=
  if !W.convertible left then none
  else if !W.convertible right then none
  else match W.stat left, W.stat right with
    | none, none => some .unknown
    | none, some _ => some .older
    | some _, none => some .newer
    | some sl, some sr =>
      if sl.dev = sr.dev ∧ sl.ino = sr.ino then some .id
      else if sl.mtime < sr.mtime then some .older
      else if sl.mtime > sr.mtime then some .newer
      else if sl.mtimeNsec < sr.mtimeNsec then some .older
      else if sl.mtimeNsec > sr.mtimeNsec then some .newer
      else some .same

/-- `case L'o'` of `test_double` (test.c 178-182). -/
def testOption (W : World) (arg : Word) : Bool :=
  match arg with
  | '?' :: r => W.optionValid r
  | _ => W.optionEnabled arg

/-- `test_double` (test.c 160-195). -/
def testDouble (W : World) (op arg : Word) : Res :=
  if op = ['!'] then .ok (!testSingle arg)
  else if !isUnaryPrimary op then .error
  else match op.tail with
    | 'n' :: _ => .ok (!arg.isEmpty)
    | 'z' :: _ => .ok arg.isEmpty
    | 't' :: _ => match xwcstoi W arg with
      | some fd => .ok (W.isatty fd)
      | none => .ok false
    | 'o' :: _ => .ok (testOption W arg)
    | c :: _ => if W.convertible arg then .ok (W.file c arg) else .error
    | [] => .error

/-- A comparison of integers in `test_triple`; `compare_integers` returns 0 after an error. -/
def intRes (W : World) (left right : Word) (p : Int → Bool) : Res :=
  match compareIntegers W left right with
  | some v => .ok (p v)
  | none => ⟨p 0, true⟩

/-- A comparison of files in `test_triple`. -/
def fileRes (W : World) (left right : Word) (k : FileCmp) : Res :=
  match compareFiles W left right with
  | some v => .ok (v == k)
  | none => ⟨FileCmp.unknown == k, true⟩

/-- The part of `test_triple` above the label `not_binary` (test.c 266-385); `none` when control
reaches the label. -/
def binaryOperator (W : World) (left op right : Word) : Option Res :=
  match op with
  | '=' :: o => match o with
    | [] | ['='] => some (.ok (left == right))
    | ['=', '='] => some (.ok (W.coll left right == 0))
    | ['~'] => some (.ok (W.regex left right))
    | _ => none
  | '!' :: o => match o with
    | ['='] => some (.ok (left != right))
    | ['=', '='] => some (.ok (W.coll left right != 0))
    | _ => none
  | '<' :: o => match o with
    | [] => some (.ok (W.coll left right < 0))
    | ['='] => some (.ok (W.coll left right ≤ 0))
    | _ => none
  | '>' :: o => match o with
    | [] => some (.ok (W.coll left right > 0))
    | ['='] => some (.ok (W.coll left right ≥ 0))
    | _ => none
  | '-' :: o => match o with
    | ['a'] => some (.ok (testSingle left && testSingle right))
    | ['o'] => some (.ok (testSingle left || testSingle right))
    | ['o', 't'] => some (fileRes W left right .older)
    | ['e', 'f'] => some (fileRes W left right .id)
    | ['e', 'q'] => some (intRes W left right (· == 0))
    | ['n', 'e'] => some (intRes W left right (· != 0))
    | ['n', 't'] => some (fileRes W left right .newer)
    | ['g', 't'] => some (intRes W left right (· > 0))
    | ['g', 'e'] => some (intRes W left right (· ≥ 0))
    | ['l', 't'] => some (intRes W left right (· < 0))
    | ['l', 'e'] => some (intRes W left right (· ≤ 0))
    | ['v', 'e', 'q'] => some (.ok (compareVersions W left right == 0))
    | ['v', 'n', 'e'] => some (.ok (compareVersions W left right != 0))
    | ['v', 'g', 't'] => some (.ok (compareVersions W left right > 0))
    | ['v', 'g', 'e'] => some (.ok (compareVersions W left right ≥ 0))
    | ['v', 'l', 't'] => some (.ok (compareVersions W left right < 0))
    | ['v', 'l', 'e'] => some (.ok (compareVersions W left right ≤ 0))
    | _ => none
  | _ => none

/-- `test_triple` (test.c 266-395). -/
def testTriple (W : World) (left op right : Word) : Res :=
  match binaryOperator W left op right with
  | some r => r
  | none =>
    if left = ['!'] then (testDouble W op right).not
    else if left = ['('] ∧ right = [')'] then .ok (testSingle op)
    else .error

/-- What the functions for long expressions return and leave behind: the value, the arguments
from `state->index` on, and whether messages have been printed. -/
structure Long where
  val : Bool
  rest : List Word
  err : Bool
  deriving DecidableEq, Repr

/-- `state->index + k >= state->argc || is_term_delimiter(state->args[state->index + k])`
(test.c 460-461, 467-468), `rest` being the arguments from `index + k` on. -/
def atTermEnd : List Word → Bool
  | [] => true
  | d :: _ => isTermDelimiter d

/-- The condition for a binary primary (test.c 458-461); `r` are the arguments after the index. -/
def binaryHere : List Word → Bool
  | op :: _ :: rest => isBinaryPrimary op && atTermEnd rest
  | _ => false

/-- The condition for a unary primary (test.c 464-467); `w` is the argument at the index. -/
def unaryHere (w : Word) : List Word → Bool
  | _ :: rest => isUnaryPrimary w && atTermEnd rest
  | _ => false

/-- The primary at the current position (the last three branches of `test_long_term`,
test.c 458-473). `w` is the argument at the index, `r` are those after it. -/
def longPrimary (W : World) (w : Word) (r : List Word) : Long :=
  match binaryHere r, unaryHere w r, r with
  | true, _, op :: x :: rest => let v := testTriple W w op x; ⟨v.val, rest, v.err⟩
  | false, true, x :: rest => let v := testDouble W w x; ⟨v.val, rest, v.err⟩
  | _, _, rest => ⟨testSingle w, rest, false⟩

/-! `fuel` bounds the recursion; it is proved in `Props.lean` that it never runs out. Errors are
sticky (`yash_error_message_count` only grows), so that `||` in `err` is not needed where the
caller has already checked that there is no error. -/

mutual

/-- `test_long_or` (test.c 403-415): the first operand. -/
def longOr (W : World) : Nat → List Word → Option Long
  | 0, _ => none
  | n + 1, ws => match longAnd W n ws with
    | none => none
    | some l => orLoop W n l

/-- The loop of `test_long_or`. -/
def orLoop (W : World) : Nat → Long → Option Long
  | 0, _ => none
  | n + 1, l =>
    match l.err, l.rest with
    | false, ['-', 'o'] :: r => match longAnd W n r with
      | none => none
      | some l2 => orLoop W n { l2 with val := l.val || l2.val }
    | _, _ => some l

/-- `test_long_and` (test.c 418-430): the first operand. -/
def longAnd (W : World) : Nat → List Word → Option Long
  | 0, _ => none
  | n + 1, ws => match longTerm W n ws with
    | none => none
    | some l => andLoop W n l

/-- The loop of `test_long_and`. -/
def andLoop (W : World) : Nat → Long → Option Long
  | 0, _ => none
  | n + 1, l =>
    match l.err, l.rest with
    | false, ['-', 'a'] :: r => match longTerm W n r with
      | none => none
      | some l2 => andLoop W n { l2 with val := l.val && l2.val }
    | _, _ => some l

/-- `test_long_term` (test.c 433-475). -/
def longTerm (W : World) : Nat → List Word → Option Long
  | 0, _ => none
  | n + 1, ws =>
    match ws with
    | ['!'] :: r => match longFactor W n r with
      | none => none
      | some l => some { l with val := l.val ^^ true }
    | _ => match longFactor W n ws with
      | none => none
      | some l => some { l with val := l.val ^^ false }

/-- The part of `test_long_term` after the optional negation (test.c 443-474); where the C
function returns 0 at once because of an error the caller's negation does not matter, the message
having been printed. -/
def longFactor (W : World) : Nat → List Word → Option Long
  | 0, _ => none
  | _ + 1, [] => some ⟨false, [], true⟩
  | n + 1, w :: r =>
    if w = ['('] then
      match longOr W n r with
      | none => none
      | some l => match l.rest with
        | [')'] :: r2 => some { l with rest := r2 }
        | rest => some ⟨false, rest, true⟩
    else some (longPrimary W w r)

end

/-- Fuel that suffices for `ws`. -/
def fuelFor (ws : List Word) : Nat := 6 * ws.length + 6

/-- `default:` of `test_builtin` (test.c 135-144). -/
def testLong (W : World) (args : List Word) : Res :=
  match longOr W (fuelFor args) args with
  | none => .error
  | some l => ⟨l.val, l.err || !l.rest.isEmpty⟩

/-- The `switch (argc)` of `test_builtin` (test.c 121-145). -/
def testArgs (W : World) (args : List Word) : Res :=
  match args with
  | [] => .ok false
  | [a] => .ok (testSingle a)
  | [a, b] => testDouble W a b
  | [a, b, c] => testTriple W a b c
  | [a, b, c, d] =>
    if a = ['!'] then (testTriple W b c d).not
    else if a = ['('] ∧ d = [')'] then testDouble W b c
    else testLong W args
  | _ => testLong W args

/-- `test_builtin` (test.c 106-150). `argv0` is the name the built-in was called by. The second
component says whether an error message was printed; the counter is reset before the call
(exec.c 1058). -/
def testBuiltin (W : World) (argv0 : Word) (args : List Word) : Nat × Bool :=
  if argv0 = ['['] then
    match args.getLast? with
    | none => (2, true)
    | some l =>
      if l ≠ [']'] then (2, true)
      else let r := testArgs W args.dropLast; (r.status, r.err)
  else let r := testArgs W args; (r.status, r.err)

end Yash.TestBuiltin
