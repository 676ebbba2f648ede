import Verif.Source.Props
/-! # Concrete cases for property C94 -/
set_option autoImplicit false

namespace Yash.Source

open Spec

/-- A shell in which the file `/s/lib` is readable; files set a positional parameter and return 3. -/
def exEnv : Env Nat where
  posix := false
  interactive := false
  special := true
  isDigit := fun c => c.isDigit
  stopped := 0
  bytes := some
  path := some ["/bin".toList, "/s".toList]
  loadpath := some ["/l".toList]
  readable := fun f => f == "/s/lib".toList
  canOpen := fun f => f == "/s/lib".toList
  execInput := fun _ _ s => some { s with frames := ["z".toList] :: s.frames.tail, laststatus := 3, exc := .ret, execstate := ⟨7, 7, true, true⟩, rest := s.rest + s.frames.length }
  commandPath := fun n => if n == "prog".toList then some "/bin/prog".toList else none
  exported := fun n => if n == "A".toList then some "1".toList else none
  environ := ["E=e".toList]
  assigned := ["A".toList, "B".toList, "A".toList]
  execve := fun f _ _ => if f == "/bin/prog".toList || f == "/proc/self/exe".toList then none else if f == "/s/text".toList then some .enoexec else some .enoent

def exState : State Nat := ⟨⟨2, 2, true, false⟩, .none, true, 0, [["q".toList]], 5⟩

theorem exPlain : PlainBytes exEnv := by
  intro n b h
  have : n = b := Option.some.inj h
  subst this
  simp

theorem exKeeps : KeepsOthers exEnv := by
  intro p a s s' h
  have h' := congrArg (fun o => (o.map fun (s : State Nat) => s.frames.tail)) h
  exact (Option.some.inj h').symm

theorem exGiven_of {opts : List Xgetopt.Opt} {args : List Str} {letters : List (Char × Option Str)} {operands : List Str}
    (h1 : ((Xgetopt.Spec.parse (exEnv.getopt opts) none args).reports.map fun o => (o.1.short, o.2)) = letters)
    (h2 : (Xgetopt.Spec.parse (exEnv.getopt opts) none args).operands = operands)
    (h3 : (Xgetopt.Spec.parse (exEnv.getopt opts) none args).final = .done) : Given exEnv opts args letters operands := by
  subst h1 h2
  exact ⟨_, (Xgetopt.Spec.parse (exEnv.getopt opts) none args).used, by rw [← h3], rfl⟩

theorem exGiven : Given exEnv dotOptions ["lib".toList, "x".toList] [] ["lib".toList, "x".toList] :=
  exGiven_of (by decide +kernel) (by decide +kernel) (by decide +kernel)

/-- `. lib x` executes the file in the second directory of `PATH`; `return` ends the file only. -/
example : dotBuiltin exEnv ["lib".toList, "x".toList] exState = .stay (some "/s/lib".toList) ⟨⟨2, 2, true, false⟩, .none, true, 3, [["q".toList]], 7⟩ 3 := by decide +kernel

/-- The hypotheses of `dot_executes` are met. -/
theorem exSources : Sources exEnv [] "lib".toList "lib".toList "/s/lib".toList := by
  have h : dotPath exEnv (flag [] 'L') "lib".toList "lib".toList = some "/s/lib".toList := by
    have : flag [] 'L' = false := by rw [← Bool.not_eq_true, flag_iff]; rintro ⟨a, h⟩; simp at h
    rw [this]; decide +kernel
  exact (dotPath_iff exPlain rfl (by decide) _).1 h

example := dot_executes exPlain exKeeps exGiven (by rintro ⟨a, h⟩; simp at h) (Or.inr rfl) (by decide) rfl exSources (by decide +kernel) exState

/-- A file that is in no directory is looked for in the current one, where it cannot be opened here. -/
example : dotBuiltin exEnv ["none".toList] exState = .exit 1 := by decide +kernel
example : dotBuiltin { exEnv with special := false } ["none".toList] exState = .stay none exState 1 := by decide +kernel
/-- No operand. -/
example : dotBuiltin exEnv ["-A".toList] exState = .stay none exState 2 := by decide +kernel
example : dotBuiltin { exEnv with posix := true } ["lib".toList, "x".toList] exState = .exit 2 := by decide +kernel

/-- `exec -a me prog x` -/
example : execBuiltin exEnv ["-a".toList, "me".toList, "prog".toList, "x".toList, "-c".toList] =
    .replaced "/bin/prog".toList ["me".toList, "x".toList, "-c".toList] ["E=e".toList] := by decide +kernel

/-- `A=0 B=0 A=1 exec -c prog`, where `B` is not exported: `A` is in the environment twice. -/
example : execBuiltin exEnv ["-c".toList, "prog".toList] = .replaced "/bin/prog".toList ["prog".toList] ["A=1".toList, "A=1".toList] := by decide +kernel

/-- A script without a format is executed by the shell. -/
example : execBuiltin exEnv ["/s/text".toList, "x".toList] =
    .replaced "/proc/self/exe".toList ["sh".toList, "-".toList, "/s/text".toList, "x".toList] ["E=e".toList] := by decide +kernel

example : execBuiltin exEnv ["nope".toList] = .exit 127 := by decide +kernel
example : execBuiltin { exEnv with interactive := true } ["nope".toList] = .stay 127 := by decide +kernel
example : execBuiltin { exEnv with interactive := true, stopped := 1 } ["prog".toList] = .stay 1 := by decide +kernel
example : execBuiltin { exEnv with interactive := true, stopped := 1 } ["-f".toList, "prog".toList] = .replaced "/bin/prog".toList ["prog".toList] ["E=e".toList] := by decide +kernel
example : execBuiltin exEnv [] = .stay 0 := by decide +kernel

/-- The hypotheses of `exec_executes` are met. -/
example : Given exEnv execOptions ["-a".toList, "me".toList, "-c".toList, "prog".toList, "x".toList] [('a', some "me".toList), ('c', none)] ["prog".toList, "x".toList] ∧
    AsName [('a', some "me".toList), ('c', none)] (some "me".toList) :=
  ⟨exGiven_of (by decide +kernel) (by decide +kernel) (by decide +kernel),
    Or.inr ⟨[], [('c', none)], rfl, by rintro ⟨a, h⟩; simp at h⟩⟩

end Yash.Source
