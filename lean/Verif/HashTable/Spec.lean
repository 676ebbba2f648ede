import Verif.HashTable.Model
/-!
# Specification of the hash table: a finite map

A map is a function from keys to the pair stored for that key.  `equiv` is key equality.
-/
namespace Yash.HashTable.Spec

variable {K V : Type}

/-- What a table denotes: for each key the stored pair, if any. -/
abbrev FMap (K V : Type) := K → Option (K × V)

/-- Requests a client can make. -/
inductive Op (K V : Type) where
  | get (k : K)
  | set (k : K) (v : V)
  | remove (k : K)
  | clear
  | setCapacity (n : Nat)
  | ensureCapacity (n : Nat)

/-- The abstract effect of a request: the new map and the pair handed back. -/
def step (equiv : K → K → Bool) (m : FMap K V) : Op K V → FMap K V × Option (K × V)
  | .get k => (m, m k)
  | .set k v => (fun k' => if equiv k k' then some (k, v) else m k', m k)
  | .remove k => (fun k' => if equiv k k' then none else m k', m k)
  | .clear => (fun _ => none, none)
  | .setCapacity _ => (m, none)
  | .ensureCapacity _ => (m, none)

/-- The answers to a sequence of requests, and the final map. -/
def run (equiv : K → K → Bool) (m : FMap K V) : List (Op K V) → FMap K V × List (Option (K × V))
  | [] => (m, [])
  | op :: ops =>
    let (m', r) := step equiv m op
    let (m'', rs) := run equiv m' ops
    (m'', r :: rs)

/-- `keyeq` is an equivalence and the hash function respects it. -/
structure Lawful (c : Cfg K) : Prop where
  refl : ∀ a, c.keyeq a a = true
  symm : ∀ a b, c.keyeq a b = true → c.keyeq b a = true
  trans : ∀ a b d, c.keyeq a b = true → c.keyeq b d = true → c.keyeq a d = true
  hash : ∀ a b, c.keyeq a b = true → c.hash a = c.hash b

end Yash.HashTable.Spec
