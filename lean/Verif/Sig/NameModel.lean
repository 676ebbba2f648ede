import Verif.TestBuiltin.Model
import Verif.Expand.Quote
/-!
# Signal names, `kill -l` and what the `trap` built-in prints (`sig.c`)

`int` is an unbounded integer here; the only computed values are within the range of signal numbers.
-/
set_option autoImplicit false

namespace Yash.Sig.Names
open Yash.TestBuiltin (World isDigit xwcstoi)

abbrev Str := List Char

/-- The table `signals` (siglist.h:32-172, without the end mark), `SIGRTMIN`, `SIGRTMAX` (as on a system that has them) and
`RTSIZE` (sig.c:253-257). -/
structure Table where
  table : List (Int × Str)
  rtmin : Int
  rtmax : Int
  rtsize : Int

/-- `%d` for a number that is not negative. -/
def decimal (n : Int) : Str := Nat.toDigits 10 n.toNat

/-- `get_signal_name` (sig.c:120-145). -/
def getSignalName (T : Table) (signum : Int) : Str :=
  if signum = 0 then "EXIT".toList
  else if T.rtmin ≤ signum ∧ signum ≤ T.rtmax then
    if signum = T.rtmin then "RTMIN".toList
    else if signum = T.rtmax then "RTMAX".toList
    else if signum - T.rtmin ≤ (T.rtmax - T.rtmin) / 2 then "RTMIN+".toList ++ decimal (signum - T.rtmin)
    else "RTMAX-".toList ++ decimal (T.rtmax - signum)
  else
    match T.table.find? (fun s => s.1 == signum) with
    | some s => s.2
    | none => []

/-- `parse_signal_number` (sig.c:199-218). -/
def parseSignalNumber (W : World) (T : Table) (number : Str) : Int :=
  match xwcstoi W number with
  | none => -1
  | some signum =>
    if signum < 0 then -1
    else if signum = 0 then 0
    else if T.rtmin ≤ signum ∧ signum ≤ T.rtmax then signum
    else if T.table.any (fun s => s.1 == signum) then signum
    else -1

/-- The part of `get_signal_number` about names that begin with `RTMIN` (sig.c:167-178); `name` is what follows. -/
def rtminNumber (W : World) (T : Table) : Str → Option Int
  | [] => some T.rtmin
  | '+' :: r =>
    match xwcstoi W ('+' :: r) with
    | some num => if num < 0 then none else if num ≤ T.rtmax - T.rtmin then some (T.rtmin + num) else some (-1)
    | none => some (-1)
  | _ => some (-1)

/-- The part of `get_signal_number` about names that begin with `RTMAX` (sig.c:180-191). -/
def rtmaxNumber (W : World) (T : Table) : Str → Option Int
  | [] => some T.rtmax
  | '-' :: r =>
    match xwcstoi W ('-' :: r) with
    | some num => if ¬ num < 0 then none else if T.rtmin - T.rtmax ≤ num then some (T.rtmax + num) else some (-1)
    | none => some (-1)
  | _ => some (-1)

/-- The part of `get_signal_number` after the prefix `SIG` (sig.c:162-194). -/
def nameNumber (W : World) (T : Table) (name : Str) : Option Int :=
  match T.table.find? (fun s => s.2 == name) with
  | some s => some s.1
  | none =>
    if name.take 5 = "RTMIN".toList then rtminNumber W T (name.drop 5)
    else if name.take 5 = "RTMAX".toList then rtmaxNumber W T (name.drop 5)
    else some (-1)

/-- `get_signal_number` (sig.c:153-195); `none` is a failed assertion. -/
def getSignalNumber (W : World) (T : Table) (name : Str) : Option Int :=
  if (name.head?.map isDigit).getD false then some (parseSignalNumber W T name)
  else if name = "EXIT".toList then some 0
  else nameNumber W T (if name.take 3 = "SIG".toList then name.drop 3 else name)

/-- `get_signal_number_toupper` (sig.c:226-231). -/
def getSignalNumberToupper (upper : Char → Char) (W : World) (T : Table) (name : Str) : Option Int :=
  getSignalNumber W T (name.map upper)

/-- An operand of `kill -l` (sig.c:1395-1412): the name that is printed, nothing if there is an error message; `none` is a failed
assertion.  `TERMSIGOFFSET` is 384 (job.h:67). -/
def killList (upper : Char → Char) (W : World) (T : Table) (arg : Str) : Option (Option Str) :=
  let signum :=
    match xwcstoi W arg with
    | some n =>
      if 0 ≤ n then some (if 384 ≤ n then n - 384 else if 128 ≤ n then n - 128 else n)
      else getSignalNumberToupper upper W T arg
    | none => getSignalNumberToupper upper W T arg
  signum.map fun n => if n ≤ 0 ∨ getSignalName T n = [] then none else some (getSignalName T n)

/-- The commands of the traps, by signal number; no command is `NULL`. -/
abbrev Commands := Int → Option Str

/-- The first operand of the `trap` built-in is a number (sig.c:1244-1248). -/
def isInteger : Str → Bool
  | [] => false
  | c :: s => (c :: s).all isDigit

/-- The loop over the signals (sig.c:1261-1269).  Whether a trap may be set for a signal (sig.c:842-877) is a parameter. -/
def setTraps (may : Int → Bool) (upper : Char → Char) (W : World) (T : Table) (command : Option Str) :
    List Str → Commands → Option Commands
  | [], cs => some cs
  | name :: names, cs =>
    match getSignalNumberToupper upper W T name with
    | none => none
    | some signum =>
      setTraps may upper W T command names
        (if 0 ≤ signum ∧ may signum = true then (fun n => if n = signum then command else cs n) else cs)

/-- The `trap` built-in with operands and without `-p` (sig.c:1241-1270), as far as the commands are concerned; phantoms
are part of `Sig.Model`. -/
def trapBuiltin (may : Int → Bool) (upper : Char → Char) (W : World) (T : Table) (operands : List Str) (cs : Commands) :
    Option Commands :=
  match operands with
  | [] => some cs
  | first :: rest =>
    if isInteger first then setTraps may upper W T none (first :: rest) cs
    else if rest = [] then some cs
    else setTraps may upper W T (if first = ['-'] then none else some first) rest cs

/-- `print_trap` (sig.c:1281-1290). -/
def printTrap (L : Expand.Locale) (signame : Str) : Option Str → Str
  | none => []
  | some command => "trap -- ".toList ++ (Expand.quoteAsWord L command ++ ' ' :: (signame ++ ['\n']))

/-- The loop over the table (sig.c:1199-1205); the signals in `printed` have been printed. -/
def printTable (L : Expand.Locale) (cs : Commands) : List Int → List (Int × Str) → List Str
  | _, [] => []
  | printed, s :: table =>
    if s.1 ∈ printed then printTable L cs printed table
    else printTrap L s.2 (cs s.1) :: printTable L cs (s.1 :: printed) table

/-- The loop over the real-time signals (sig.c:1208-1213), from number `i` on, `n` times at most. -/
def printRt (L : Expand.Locale) (T : Table) (cs : Commands) : Int → Nat → List Str
  | _, 0 => []
  | i, n + 1 =>
    if T.rtmin + i > T.rtmax then []
    else printTrap L (getSignalName T (T.rtmin + i)) (cs (T.rtmin + i)) :: printRt L T cs (i + 1) n

/-- The `trap` built-in without operands (sig.c:1193-1214): what it prints, trap by trap. -/
def printTraps (L : Expand.Locale) (T : Table) (cs : Commands) : List Str :=
  printTrap L "EXIT".toList (cs 0) :: (printTable L cs [] T.table ++ printRt L T cs 0 T.rtsize.toNat)

end Yash.Sig.Names
