import Verif.Leave.Props
import Verif.TestBuiltin.Props
/-! # Examples for property C89 -/
set_option autoImplicit false

namespace Yash.Leave.Examples

open Spec

def digit (c : Char) : Bool := '0' ≤ c && c ≤ '9'

/-- An interactive shell with two stopped jobs. -/
def E : Env := ⟨false, true, true, digit, TestBuiltin.posixWorld, 2⟩

/-- A POSIXly-correct shell that executes a script. -/
def P : Env := ⟨true, false, true, digit, TestBuiltin.posixWorld, 0⟩

/-- In the third of nested loops. -/
def s : State := ⟨7, -1, 3, 3, false, false, .none, false, false⟩

def words (l : List String) : List Str := l.map String.toList

example : breakBuiltin E true (words []) s = .stay { s with breakloopnest := 2 } 0 ∧ breakBuiltin E true (words ["2"]) s = .stay { s with breakloopnest := 1 } 0 ∧
    breakBuiltin E true (words [" +0x2"]) s = .stay { s with breakloopnest := 1 } 0 ∧ breakBuiltin E true (words ["9"]) s = .stay { s with breakloopnest := 0 } 0 ∧
    breakBuiltin E false (words ["--", "2"]) s = .stay { s with breakloopnest := 2, exc := .cont } 0 ∧ breakBuiltin E true (words ["0"]) s = .stay s 2 ∧
    breakBuiltin P true (words ["x"]) s = .exit s 2 ∧ breakBuiltin E true (words ["1", "1"]) s = .stay s 2 ∧ breakBuiltin E true (words ["--", "-1"]) s = .stay { s with breakloopnest := 0 } 0 := by
  decide +kernel

example : breakBuiltin E true (words ["-i"]) s = .stay s 2 ∧ breakBuiltin E false (words ["-i"]) { s with iterating := true } = .stay { s with iterating := true, exc := .contIteration } 7 := by
  decide +kernel

example : returnBuiltin E (words ["3"]) s = .stay { s with exc := .ret } 3 ∧ returnBuiltin E (words []) s = .stay { s with exc := .ret } 7 ∧
    returnBuiltin E (words []) { s with savelaststatus := 5 } = .stay { s with savelaststatus := 5, exc := .ret } 5 ∧
    returnBuiltin E (words ["-n", "300"]) s = .stay s 300 ∧ returnBuiltin E (words ["--", "-3"]) s = .stay { s with exc := .ret } 2 ∧ returnBuiltin P (words ["x"]) s = .exit s 2 ∧
    returnBuiltin E (words ["1"]) { s with noreturn := true } = .stay { s with noreturn := true } 1 := by
  decide +kernel

example : exitBuiltin E (words ["3"]) s = .stay { s with forceexit := true, nextforceexit := true } 1 ∧ exitBuiltin E (words ["-f", "3"]) s = .exit { s with forceexit := true } 3 ∧
    exitBuiltin P (words ["3"]) s = .exit s 3 ∧ exitBuiltin P (words ["x"]) s = .exit s 2 ∧ exitBuiltin P (words []) s = .exit s (-1) ∧ exitBuiltin E (words ["1", "2"]) s = .stay s 2 := by
  decide +kernel

/-- `exit`, an empty line, `exit` warns twice; `exit`, `exit` exits; `exit; exit` exits; so does `jobs`, `exit`, but not `jobs; exit`. -/
example : (runLines E [[.exit []], [], [.exit []]] s).isSome ∧ runLines E [[.exit []], [.other, .exit []]] s = none ∧ runLines E [[.exit [], .exit []]] s = none ∧
    runLines E [[.jobs], [.exit []]] s = none ∧ (runLines E [[.jobs, .exit []]] s).isSome := by
  decide +kernel

/-- An `EXIT` trap that fails does not change the exit status, nor does `exit` in it, but `exit 4` does. -/
example : exitShellWithStatus none 7 (-1) = 7 ∧ exitShellWithStatus (some fun _ => .finished 1) 7 3 = 3 ∧ exitShellWithStatus (some fun _ => .exits 1 (-1)) 7 3 = 3 ∧
    exitShellWithStatus (some fun _ => .exits 1 4) 7 3 = 4 := by
  decide +kernel

theorem given_of {E : Env} {opts : List Xgetopt.Opt} {args operands : List Str} {letters : List Char}
    (h1 : letters = (Xgetopt.Spec.parse (E.getopt opts) none args).reports.map fun o => o.1.short) (h2 : (Xgetopt.Spec.parse (E.getopt opts) none args).operands = operands)
    (h3 : (Xgetopt.Spec.parse (E.getopt opts) none args).final = .done) : Given E opts args letters operands :=
  ⟨_, _, by rw [← h2, ← h3], h1⟩

theorem count_two : Count E " +0x2".toList 2 := count_iff.2 ((Arith.signed_iff _ _).2 ⟨2, (Arith.constant_iff _ _).2 (by decide +kernel), by decide +kernel⟩)

/-- The hypotheses of `break_leaves` and `break_executed` are met. -/
example : Given E iterOptions (words [" +0x2"]) [] (words [" +0x2"]) ∧ Count E " +0x2".toList 2 ∧ 0 < s.loopnest ∧ s.loopnest < 2 ^ 32 :=
  ⟨given_of (by decide +kernel) (by decide +kernel) (by decide +kernel), count_two, by decide, by decide⟩

/-- Those of `break_negative` are. -/
example : Given E iterOptions (words ["--", "-1"]) [] ["-1".toList] ∧ Count E "-1".toList (-1) :=
  ⟨given_of (by decide +kernel) (by decide +kernel) (by decide +kernel), count_iff.2 ((Arith.signed_iff _ _).2 ⟨1, (Arith.constant_iff _ _).2 (by decide +kernel), by decide +kernel⟩)⟩

/-- Those of `break_refused_partial` are, in all ways. -/
example : (Xgetopt.Spec.parse (E.getopt iterOptions) none (words ["-x"])).final = .error .noSuchOption ∧ Given E iterOptions (words ["-i", "2"]) ['i'] ["2".toList] ∧
    Given E iterOptions (words ["0"]) [] ["0".toList] ∧ (∀ n, Count E "0".toList n → n = 0 ∨ n ≤ -(2 ^ 64) ∨ 2 ^ 64 ≤ n) :=
  ⟨by decide +kernel, given_of (by decide +kernel) (by decide +kernel) (by decide +kernel), given_of (by decide +kernel) (by decide +kernel) (by decide +kernel),
    fun _ h => .inl (count_unique h (count_iff.2 ((Arith.signed_iff _ _).2 ⟨0, (Arith.constant_iff _ _).2 (by decide +kernel), by decide +kernel⟩)))⟩

theorem invalid (n : Int) : ¬ExitStatus E "-3".toList n := by
  rw [← valid_iff, show validStatus E "-3".toList = none by decide +kernel]
  simp

/-- Those of `return_returns`, `return_invalid` and `exit_status` are. -/
example : Given E returnOptions (words ["-n", "3"]) ['n'] ["3".toList] ∧ ExitStatus E "3".toList 3 ∧ (∀ n, ¬ExitStatus E "-3".toList n) ∧ Given E forceOptions (words ["-f", "3"]) ['f'] ["3".toList] :=
  ⟨given_of (by decide +kernel) (by decide +kernel) (by decide +kernel), valid_iff.1 (by decide +kernel),
    invalid, given_of (by decide +kernel) (by decide +kernel) (by decide +kernel)⟩

/-- Those of `exit_warned` are. -/
example : E.interactive = true ∧ 0 < E.stopped ∧ PlainExit E [] ∧ PlainExit E (words ["3"]) ∧ (∃ s1, runLines E [[.exit []], [.other]] s = some s1 ∧ ∃ s2, runCmds E [.exit [], .jobs] (nextLine s1) = some s2) :=
  ⟨rfl, by decide, ⟨[], given_of (by decide +kernel) (by decide +kernel) (by decide +kernel), by decide⟩,
    ⟨["3".toList], given_of (by decide +kernel) (by decide +kernel) (by decide +kernel), by decide⟩,
    ⟨{ s with forceexit := true, nextforceexit := false }, by decide +kernel, { s with forceexit := true, nextforceexit := true }, by decide +kernel⟩⟩

end Yash.Leave.Examples
