/-!
# Model of the umask built-in (path.c)

`mode_t` has 32 bits and the permission bits have the values that POSIX requires.  Option parsing and
messages are left out.
-/
set_option autoImplicit false

namespace Yash.Path

abbrev Mode := BitVec 32

/-- `S_IRWXU | S_IRWXG | S_IRWXO` -/
def allBits : Mode := 0o777#32

/-- The result of the system call `umask(m)`: the mask of the process afterwards. -/
def umaskCall (m : Mode) : Mode := m &&& allBits

/-- The loop that parses the letters before the operator (path.c:1816-1824). -/
def parseWho : List Char → Mode → Mode × List Char
  | [], who => (who, [])
  | c :: s, who =>
    if c = 'u' then parseWho s (who ||| 0o700#32)
    else if c = 'g' then parseWho s (who ||| 0o070#32)
    else if c = 'o' then parseWho s (who ||| 0o007#32)
    else if c = 'a' then parseWho s 0o777#32
    else (who, c :: s)

inductive UmaskOp where
  | plus | minus | set
deriving DecidableEq, Repr

/-- The operator (path.c:1814, 1830-1838).  The wide character is assigned to a `char`, so that only
its lowest eight bits count. -/
def umaskOp (c : Char) : Option UmaskOp :=
  if c.toNat % 256 = 43 then some .plus
  else if c.toNat % 256 = 45 then some .minus
  else if c.toNat % 256 = 61 then some .set
  else none

/-- Sets the bits of a permission for all if the bit `b` of the mode is set. -/
def spread (mode b perm : Mode) : Mode := if mode &&& b ≠ 0#32 then perm else 0#32

/-- `copy_user_mask`, `copy_group_mask` and `copy_other_mask` (path.c:1887-1906); the arguments are the
read, write and execute bits that are copied. -/
def copyMask (mode r w x : Mode) : Mode :=
  spread mode r 0o444#32 ||| spread mode w 0o222#32 ||| spread mode x 0o111#32

/-- The loop that parses permission letters (path.c:1846-1857). -/
def parseLetters (orig : Mode) : List Char → Mode → Mode × List Char
  | [], perm => (perm, [])
  | c :: s, perm =>
    if c = 'r' then parseLetters orig s (perm ||| 0o444#32)
    else if c = 'w' then parseLetters orig s (perm ||| 0o222#32)
    else if c = 'X' then
      parseLetters orig s (if orig &&& 0o111#32 = 0#32 then perm else perm ||| 0o111#32)
    else if c = 'x' then parseLetters orig s (perm ||| 0o111#32)
    else if c = 's' then parseLetters orig s (perm ||| 0o6000#32)
    else (perm, c :: s)

/-- The permissions after an operator (path.c:1840-1860). -/
def parsePerm (orig : Mode) (s : List Char) : Mode × List Char :=
  match s with
  | 'u' :: s => (copyMask orig 0o400#32 0o200#32 0o100#32, s)
  | 'g' :: s => (copyMask orig 0o040#32 0o020#32 0o010#32, s)
  | 'o' :: s => (copyMask orig 0o004#32 0o002#32 0o001#32, s)
  | s => parseLetters orig s 0#32

/-- The operation (path.c:1862-1868). -/
def applyOp (op : UmaskOp) (who perm new : Mode) : Mode :=
  match op with
  | .plus => new ||| (who &&& perm)
  | .minus => new &&& ~~~(who &&& perm)
  | .set => (~~~who &&& new) ||| (who &&& perm)

theorem parseWho_le (s : List Char) (who : Mode) : (parseWho s who).2.length ≤ s.length := by
  induction s generalizing who with
  | nil => exact Nat.le_refl _
  | cons c s ih =>
    have h := fun w => Nat.le_trans (ih w) (Nat.le_succ s.length)
    unfold parseWho
    split
    · exact h _
    split
    · exact h _
    split
    · exact h _
    split
    · exact h _
    · exact Nat.le_refl _

theorem parseLetters_le (orig : Mode) (s : List Char) (perm : Mode) :
    (parseLetters orig s perm).2.length ≤ s.length := by
  induction s generalizing perm with
  | nil => exact Nat.le_refl _
  | cons c s ih =>
    have h := fun w => Nat.le_trans (ih w) (Nat.le_succ s.length)
    unfold parseLetters
    split
    · exact h _
    split
    · exact h _
    split
    · exact h _
    split
    · exact h _
    split
    · exact h _
    · exact Nat.le_refl _

theorem parsePerm_le (orig : Mode) (s : List Char) : (parsePerm orig s).2.length ≤ s.length := by
  unfold parsePerm
  split
  · simp
  · simp
  · simp
  · exact parseLetters_le orig _ _

/-- The letters before the operator, none of them meaning all (path.c:1816-1827). -/
def whoOf (s : List Char) : Mode × List Char :=
  let p := parseWho s 0#32
  (if p.1 = 0#32 then 0o777#32 else p.1, p.2)

/-- The loops over clauses and operators (path.c:1812-1876).  `who` is `none` at the beginning of a
clause.  The result is `newmask`, or `none` for `goto err`. -/
def symLoop (orig : Mode) (who : Option Mode) (s : List Char) (new : Mode) : Option Mode :=
  match hs : (match who with | some w => (w, s) | none => whoOf s) with
  | (_, []) => none
  | (w, c :: s2) =>
    match umaskOp c with
    | none => none
    | some op =>
      let new' := applyOp op w (parsePerm orig s2).1 new
      match hp : (parsePerm orig s2).2 with
      | [] => some new'
      | d :: s3 =>
        if d = ',' then symLoop orig none s3 new' else symLoop orig (some w) (d :: s3) new'
termination_by s.length
decreasing_by
  all_goals
    have h1 := parsePerm_le orig s2
    have h2 : s2.length + 1 ≤ s.length := by
      cases who with
      | some w' => simp only [Prod.mk.injEq] at hs; rw [hs.2]; simp
      | none =>
        have h3 := parseWho_le s 0#32
        have h4 : (whoOf s).2.length = (parseWho s 0#32).2.length := rfl
        simp only at hs
        rw [hs] at h4
        simp only [List.length_cons] at h4
        omega
    rw [hp] at h1
    simp only [List.length_cons] at h1 ⊢
    omega

/-- `iswdigit` -/
def isDigit (c : Char) : Bool := 48 ≤ c.toNat && c.toNat ≤ 57

/-- The digits of an octal number at the beginning of a string, and the rest. -/
def scanOctal : List Char → Nat → Nat × List Char
  | [], n => (n, [])
  | c :: s, n => if '0' ≤ c ∧ c ≤ '7' then scanOctal s (n * 8 + (c.toNat - 48)) else (n, c :: s)

/-- `set_umask` (path.c:1790-1885): the new mask of the process, and whether it succeeds.  The first
branch is `wcstoumax` with base 8: for a string that begins with a digit there are neither spaces nor
signs, a number over `UINTMAX_MAX` is an error, and with `8` or `9` at the beginning nothing is
converted. -/
def setUmask (mask : Mode) (s : List Char) : Mode × Bool :=
  if (s.head?.map isDigit).getD false then
    match scanOctal s 0 with
    | (n, []) =>
      if n < 18446744073709551616 then (umaskCall (BitVec.ofNat 64 n &&& 0o777#64).toNat, true)
      else (mask, false)
    | (_, _ :: _) => (mask, false)
  else
    match symLoop (~~~mask) none s (~~~mask) with
    | some new => (umaskCall (~~~new), true)
    | none => (umaskCall (~~~(~~~mask)), false)

/-- `print_umask_octal` without the newline (path.c:1757-1760): `printf("0%.3jo", mode)`. -/
def printOctal (mask : Mode) : List Char :=
  '0' :: (List.replicate (3 - (Nat.toDigits 8 mask.toNat).length) '0' ++ Nat.toDigits 8 mask.toNat)

/-- A letter if the bit is not set. -/
def letter (mask b : Mode) (c : Char) : List Char := if mask &&& b = 0#32 then [c] else []

/-- `print_umask_symbolic` without the newline (path.c:1762-1788). -/
def printSymbolic (mask : Mode) : List Char :=
  ['u', '='] ++ letter mask 0o400#32 'r' ++ letter mask 0o200#32 'w' ++ letter mask 0o100#32 'x' ++
  [',', 'g', '='] ++ letter mask 0o040#32 'r' ++ letter mask 0o020#32 'w' ++ letter mask 0o010#32 'x' ++
  [',', 'o', '='] ++ letter mask 0o004#32 'r' ++ letter mask 0o002#32 'w' ++ letter mask 0o001#32 'x'

end Yash.Path
