import Verif.Kill.Model
import Verif.Sig.NameSpec
import Verif.Job.Spec
/-!
# Specification of the `kill` built-in

From the model only the types of the environment, of calls and of jobs are used.
-/
set_option autoImplicit false

namespace Yash.Kill.Spec

open Yash.Sig.Names (Table)
open Yash.Sig.Names.Spec (Numeral Denotes Valid Name)
open Yash.Job.Spec (jobAt Present Means)

/-! ## Arguments -/

/-- The arguments after the options: the operands, perhaps after `--`. Without it, the first operand must not look like an option. -/
inductive Ends : List Str → List Str → Prop
  | operands {ops : List Str} : (∀ o, ops.head? = some o → o.head? ≠ some '-' ∨ o = ['-']) → Ends ops ops
  | separated {ops : List Str} : Ends ("--".toList :: ops) ops

/-- After the signal, operands may begin with a hyphen. -/
inductive EndsAfterSignal : List Str → List Str → Prop
  | operands {ops : List Str} : ops.head? ≠ some "--".toList → EndsAfterSignal ops ops
  | separated {ops : List Str} : EndsAfterSignal ("--".toList :: ops) ops

/-- The ways to give a signal: `-s name`, `-sname`, `-n name`, `-nname`, `-name`. -/
inductive Gives : List Str → Str → Prop
  | separate {c : Char} {name : Str} : c = 's' ∨ c = 'n' → Gives [['-', c], name] name
  | joined {c : Char} {name : Str} : c = 's' ∨ c = 'n' → name ≠ [] → Gives ['-' :: c :: name] name
  | plain {c : Char} {name : Str} : c ∉ ['s', 'n', 'l', 'v', '-'] → Gives ['-' :: c :: name] (c :: name)

/-- Arguments to send a signal: the name of the signal, if it is given, and the operands. -/
inductive Usage : List Str → Option Str → List Str → Prop
  | default {args ops : List Str} : Ends args ops → Usage args none ops
  | given {first args ops : List Str} {name : Str} : Gives first name → EndsAfterSignal args ops → Usage (first ++ args) (some name) ops

/-- Arguments to print: the letters of the options, `l` and `v`, and the operands. -/
inductive ListUsage : List Str → List Char → List Str → Prop
  | last {letters : List Char} {args ops : List Str} : letters ≠ [] → (∀ c ∈ letters, c = 'l' ∨ c = 'v') → Ends args ops → ListUsage (('-' :: letters) :: args) letters ops
  | more {letters others : List Char} {args ops : List Str} : letters ≠ [] → (∀ c ∈ letters, c = 'l' ∨ c = 'v') → ListUsage args others ops →
      ListUsage (('-' :: letters) :: args) (letters ++ others) ops

/-! ## Signals and processes -/

/-- The signal of a name (in any case); zero, which only checks the process, may be given as a number. -/
inductive Signal (E : Env) : Str → Int → Prop
  | signal {s : Str} {n : Int} : Denotes E.T (s.map E.upper) n → 0 < n → Signal E s n
  | check {s : Str} : Numeral (s.map E.upper) 0 → Signal E s 0

/-- Decimal integers: spaces and a sign may come before the digits. -/
inductive Integer (isSpace : Char → Bool) : Str → Int → Prop
  | unsigned {spaces digits : Str} {k : Nat} : (∀ c ∈ spaces, isSpace c = true) → Numeral digits k → Integer isSpace (spaces ++ digits) k
  | plus {spaces digits : Str} {k : Nat} : (∀ c ∈ spaces, isSpace c = true) → Numeral digits k → Integer isSpace (spaces ++ '+' :: digits) k
  | minus {spaces digits : Str} {k : Nat} : (∀ c ∈ spaces, isSpace c = true) → Numeral digits k → Integer isSpace (spaces ++ '-' :: digits) (-k)

/-- What an operand stands for: a number stands for itself, a job for its process group (a negative number). -/
inductive Target (E : Env) : Str → Int → Prop
  | process {s : Str} {n : Int} : s.head? ≠ some '%' → Integer E.W.isSpace s n → -2 ^ 63 ≤ n → n < 2 ^ 63 → Target E s n
  | job {t : Str} {n : Nat} {j : Job.Job} : jobAt E.jobs n = some j → Means E.jobs t n → (∀ m, Present E.jobs m → Means E.jobs t m → m = n) →
      j.legacy = false → j.pgid ≠ 0 → Target E ('%' :: t) (-(j.pgid : Int))

/-- The calls for the operands: one for each that stands for something, in the order of the operands. -/
inductive Sends (E : Env) (signum : Int) : List Str → List Call → Prop
  | nil : Sends E signum [] []
  | found {o : Str} {os : List Str} {pid : Int} {calls : List Call} : Target E o pid → Sends E signum os calls → Sends E signum (o :: os) ((pid, signum) :: calls)
  | skipped {o : Str} {os : List Str} {calls : List Call} : (∀ pid, ¬Target E o pid) → Sends E signum os calls → Sends E signum (o :: os) calls

/-! ## Listings -/

/-- A line about a signal. -/
inductive Line (E : Env) (n : Int) (name : Str) : Bool → Str → Prop
  | short : Line E n name false (name ++ ['\n'])
  | described {number spaces description : Str} : Numeral number n.toNat → (∀ c ∈ spaces, c = ' ') → E.describe n = some description →
      Line E n name true (number ++ '\t' :: name ++ spaces ++ ' ' :: description ++ ['\n'])
  | undescribed {number spaces : Str} : Numeral number n.toNat → (∀ c ∈ spaces, c = ' ') → E.describe n = none → Line E n name true (number ++ '\t' :: name ++ spaces ++ ['\n'])

/-- The output consists of lines about these signals. -/
inductive Lines (E : Env) (verbose : Bool) : List (Int × Str) → Str → Prop
  | nil : Lines E verbose [] []
  | cons {n : Int} {name line : Str} {rest : List (Int × Str)} {text : Str} : Line E n name verbose line → Lines E verbose rest text → Lines E verbose ((n, name) :: rest) (line ++ text)

/-- The signal that is meant by an operand of `kill -l`: by its number, by the exit status of a program that it has killed (128 more for other programs, 384 more for this
shell), or by its name. -/
inductive Lists (E : Env) : Str → Int → Prop
  | number {s : Str} {k n : Int} : Integer E.W.isSpace s k → 0 ≤ k → k < 2 ^ 31 → (k < 128 ∧ n = k) ∨ (128 ≤ k ∧ k < 384 ∧ n = k - 128) ∨ (384 ≤ k ∧ n = k - 384) →
      Valid E.T n → 0 < n → Lists E s n
  | name {s : Str} {n : Int} : (∀ k, Integer E.W.isSpace s k → k < 0 ∨ 2 ^ 31 ≤ k) → Denotes E.T (s.map E.upper) n → 0 < n → Lists E s n

/-- The lines for the operands: one for each that means a signal, with the name of that signal. -/
inductive ListsAll (E : Env) : List Str → List (Int × Str) → Prop
  | nil : ListsAll E [] []
  | found {o : Str} {os : List Str} {n : Int} {name : Str} {rest : List (Int × Str)} : Lists E o n → Name E.T name n → ListsAll E os rest → ListsAll E (o :: os) ((n, name) :: rest)
  | skipped {o : Str} {os : List Str} {rest : List (Int × Str)} : (∀ n, ¬Lists E o n) → ListsAll E os rest → ListsAll E (o :: os) rest

end Yash.Kill.Spec
