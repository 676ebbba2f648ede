import Verif.Buf.Model
/-! # Specification of growable buffers: plain lists -/
set_option autoImplicit false

namespace Yash.Buf.Spec

/-- Client requests. -/
inductive Op (α : Type) where
  | replace (i ln : Nat) (a : List α)
  | add (p : α)
  | addRepeat (p : α) (n : Nat)
  | insert (i : Nat) (a : List α)
  | cat (a : List α)
  | remove (i n : Nat)
  | truncate (n : Nat)
  | clear
  | setMax (n : Nat)
  | ensureMax (n : Nat)

/-- Effect on the sequence.  Lean's `take`/`drop` clamp out-of-range positions. `none` = the caller
violates the documented contract (truncating to more than the length). -/
def step {α : Type} (l : List α) : Op α → Option (List α)
  | .replace i ln a => some (l.take i ++ a ++ l.drop (i + ln))
  | .add p => some (l ++ [p])
  | .addRepeat p n => some (l ++ List.replicate n p)
  | .insert i a => some (l.take i ++ a ++ l.drop i)
  | .cat a => some (l ++ a)
  | .remove i n => some (l.take i ++ l.drop (i + n))
  | .truncate n => if n ≤ l.length then some (l.take n) else none
  | .clear => some []
  | .setMax n => some (l.take n)
  | .ensureMax _ => some l

def run {α : Type} (l : List α) : List (Op α) → Option (List α)
  | [] => some l
  | op :: ops => (step l op).bind (fun l' => run l' ops)

end Yash.Buf.Spec
