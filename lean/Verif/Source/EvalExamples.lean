import Verif.Source.EvalProps
import Verif.Source.Examples
/-! # Concrete cases for property C95 -/
set_option autoImplicit false

namespace Yash.Source

open Spec

/-- Commands: `b` is `break -i`, `c` is `continue -i`, `r` is `return`, `x` is `exit`; others have their length as status and add it and `$?` to a sum. -/
def exExec : Exec Nat where
  run := fun c s =>
    if c == ['x'] then none
    else if c == ['b'] then some { s with exc := .breakIteration, laststatus := 0 }
    else if c == ['c'] then some { s with exc := .contIteration, laststatus := 0 }
    else if c == ['r'] then some { s with exc := .ret, laststatus := 9 }
    else some { s with laststatus := c.length, rest := s.rest + c.length + s.laststatus.toNat }
  interrupted := fun _ => false

def exEval : State Nat := ⟨⟨0, 0, false, false⟩, .none, false, 100, [[]], 0⟩

/-- `eval aa bbb` executes `aa bbb`. -/
example : evalBuiltin exEnv exExec ["aa".toList, "bbb".toList] exEval = .stay ⟨⟨0, 0, false, false⟩, .none, false, 6, [[]], 106⟩ 6 := by decide +kernel

/-- `eval -i aa c bbb b dddd`: each command sees `$?` of the caller, and `dddd` is not executed. -/
example : evalBuiltin exEnv exExec ["-i".toList, "aa".toList, "c".toList, "bbb".toList, "b".toList, "dddd".toList] exEval =
    .stay ⟨⟨0, 0, false, false⟩, .none, false, 100, [[]], 205⟩ 0 := by decide +kernel

/-- `return` goes through. -/
example : evalBuiltin exEnv exExec ["-i".toList, "aa".toList, "r".toList, "bbb".toList] exEval = .stay ⟨⟨0, 0, false, false⟩, .ret, false, 100, [[]], 102⟩ 9 := by decide +kernel
example : evalBuiltin exEnv exExec ["-i".toList, "aa".toList, "x".toList] exEval = .exitIn := by decide +kernel
example : evalBuiltin exEnv exExec ["-i".toList] exEval = .stay exEval 0 := by decide +kernel

/-- The hypotheses of `eval_joins` and `eval_iterates` are met. -/
example : Given exEnv Leave.iterOptions ["-i".toList, "aa".toList, "b".toList] [('i', none)] ["aa".toList, "b".toList] ∧ Has [('i', none)] 'i' ∧ ¬Has [('i', none)] '-' ∧
    Given exEnv Leave.iterOptions ["aa".toList, "-i".toList] [] ["aa".toList, "-i".toList] :=
  ⟨exGiven_of (by decide +kernel) (by decide +kernel) (by decide +kernel), ⟨none, by simp⟩, by rintro ⟨a, h⟩; simp at h,
    exGiven_of (by decide +kernel) (by decide +kernel) (by decide +kernel)⟩

/-- Those of `iteration_contained` are met. -/
example : (execIteration exExec ["aa".toList, "b".toList] exEval).isSome = true ∧ exEval.exc ≠ .breakIteration ∧ exEval.exc ≠ .contIteration := by decide +kernel

/-- Those of `eval_refused` are met. -/
example : (Xgetopt.Spec.parse (exEnv.getopt Leave.iterOptions) none ["-x".toList]).final = .error .noSuchOption := by decide +kernel

end Yash.Source
