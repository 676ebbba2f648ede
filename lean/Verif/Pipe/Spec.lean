import Verif.Pipe.Model
/-!
# What the processes of a pipeline have open
-/
set_option autoImplicit false

namespace Yash.Pipe.Spec

open Redir (Fds Entry)

variable {D : Type}

/-- The descriptors of the command number `i`, of `n` commands, if the shell has the descriptors `t`
and the pipes for which `opened` is true could be opened: the pipe number `k` is between the commands
`k` and `k + 1`. -/
structure Connected (S : Sys D) (async jobControl : Bool) (opened : Nat → Bool) (n i : Nat)
    (t c : Fds D) : Prop where
  /-- the standard input is the pipe from the previous command -/
  input : ∀ k, i = k + 1 → opened k = true → c 0 = some ⟨S.reader k, false⟩
  /-- otherwise it is that of the shell … -/
  own : (∀ k, i = k + 1 → opened k = false) → async = false ∨ jobControl = true → c 0 = t 0
  /-- … or, in an asynchronous pipeline, the null device -/
  null : (∀ k, i = k + 1 → opened k = false) → async = true → jobControl = false →
    c 0 = S.null.map (⟨·, false⟩)
  /-- the standard output is the pipe to the next command -/
  output : i + 1 < n → opened i = true → c 1 = some ⟨S.writer i, false⟩
  /-- otherwise it is that of the shell -/
  last : ¬ (i + 1 < n ∧ opened i = true) → c 1 = t 1
  /-- no other descriptor differs from the shell's -/
  rest : ∀ fd, 2 ≤ fd → c fd = t fd

/-- At least `k` descriptors are free. -/
def Room (S : Sys D) (k : Nat) (t : Fds D) : Prop :=
  ∃ free : List Nat, free.Nodup ∧ free.length = k ∧ ∀ fd ∈ free, fd < S.limit ∧ t fd = none

/-- The ends of pipes are distinct, and nobody has them yet. -/
structure Fresh (S : Sys D) (t : Fds D) : Prop where
  readers : ∀ i j, S.reader i = S.reader j → i = j
  writers : ∀ i j, S.writer i = S.writer j → i = j
  ends : ∀ i j, S.reader i ≠ S.writer j
  null : ∀ i d, S.null = some d → S.reader i ≠ d ∧ S.writer i ≠ d
  new : ∀ i fd e, t fd = some e → e.desc ≠ S.reader i ∧ e.desc ≠ S.writer i

end Yash.Pipe.Spec
