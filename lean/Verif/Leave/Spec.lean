import Verif.Leave.Model
import Verif.Arith.NumSpec
import Verif.TestBuiltin.Spec
/-!
# Specification of the arguments of `break`, `continue`, `return` and `exit`
-/
set_option autoImplicit false

namespace Yash.Leave.Spec

/-- The arguments consist of options with these letters and of operands. -/
def Given (E : Env) (opts : List Xgetopt.Opt) (args : List Str) (letters : List Char) (operands : List Str) : Prop :=
  ∃ reports used, Xgetopt.Spec.parse (E.getopt opts) none args = ⟨reports, used, operands, .done⟩ ∧ letters = reports.map fun o => o.1.short

/-- An integer constant of the C language (decimal, octal or hexadecimal), possibly with white space and a sign in front. -/
def Count (E : Env) (arg : Str) (n : Int) : Prop :=
  ∃ w t, arg = w ++ t ∧ (∀ c ∈ w, E.W.isSpace c = true) ∧ Arith.Spec.Signed t n

/-- A decimal number that is an exit status: not negative, and an `int`. -/
def ExitStatus (E : Env) (arg : Str) (n : Int) : Prop := TestBuiltin.Spec.IsInteger E.W arg n ∧ 0 ≤ n ∧ n < 2 ^ 31

/-- The result of an error: nothing has changed. The shell exits if it is a POSIXly-correct one that is not interactive, and the built-in was not executed by another one. -/
def Refused (E : Env) (s : State) (r : Result) : Prop :=
  if E.posix = true ∧ E.special = true ∧ E.interactive = false then r = .exit s 2 else r = .stay s 2

/-- `exit` without options, and with at most one operand. -/
def PlainExit (E : Env) (args : List Str) : Prop := ∃ operands, Given E forceOptions args [] operands ∧ operands.length ≤ 1

/-- All `exit` commands of the line are like that. -/
def PlainLine (E : Env) (l : List Cmd) : Prop := ∀ args, Cmd.exit args ∈ l → PlainExit E args

end Yash.Leave.Spec
