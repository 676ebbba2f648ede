import Verif.Source.Eval
import Verif.Source.Spec
/-!
# Specification of iterative execution
-/
set_option autoImplicit false

namespace Yash.Source.Spec

variable {α : Type}

/-- The execution of a command in an iteration. -/
structure Step (α : Type) where
  command : Str
  before : State α
  after : State α

/-- The state from which the iteration goes on, or in which it ends: `$?` is what it was, and `break -i` and `continue -i` have had their effect. -/
def settled (status : Int) (s : State α) : State α :=
  ⟨s.execstate, if s.exc = .breakIteration ∨ s.exc = .contIteration then .none else s.exc, s.suppress, status, s.frames, s.rest⟩

/-- The next command is executed: nothing is being left except by `continue -i`, and the shell is not interrupted. -/
def GoesOn (X : Exec α) (status : Int) (s : State α) : Prop :=
  (s.exc = .none ∨ s.exc = .contIteration) ∧ s.execstate.loopnest ≤ s.execstate.breakloopnest ∧ X.interrupted (settled status s) = false

/-- These commands are executed, one after the other from the given state; each one is executed because the one before says to go on. -/
structure Trace (X : Exec α) (status : Int) (s : State α) (steps : List (Step α)) : Prop where
  runs : ∀ t ∈ steps, X.run t.command t.before = some t.after
  first : ∀ t, steps.head? = some t → t.before = s
  next : ∀ l t u r, steps = l ++ t :: u :: r → GoesOn X status t.after ∧ u.before = settled status t.after

/-- The state after these commands. -/
def endState (status : Int) (s : State α) (steps : List (Step α)) : State α :=
  match steps.getLast? with
  | none => s
  | some t => settled status t.after

end Yash.Source.Spec
