import Verif.Trie.Model
/-! # Specification of the trie: a finite map from key strings to values -/
set_option autoImplicit false

namespace Yash.Trie

/-- The comparison of key elements is a strict total order. -/
structure LtOk {K : Type} (lt : K → K → Bool) : Prop where
  irrefl : ∀ a, lt a a = false
  trans : ∀ a b c, lt a b = true → lt b c = true → lt a c = true
  total : ∀ a b, a ≠ b → lt a b = true ∨ lt b a = true

/-- Operations on a trie. -/
inductive Op (K V : Type) where
  | set (key : List K) (v : V)
  | setNull (v : V)
  | remove (key : List K)

variable {K V : Type} [DecidableEq K]

/-- The mapping after a history of operations (latest operation last). -/
def specMap (nul : K) : List (Op K V) → (List K → Option V)
  | ops => ops.foldl (fun m op => match op with
      | .set key v => fun k => if k = key then some v else m k
      | .setNull v => fun k => if k = [nul] then some v else m k
      | .remove key => fun k => if k = key then none else m k) (fun _ => none)

/-- One operation of the code. -/
def step (lt : K → K → Bool) (nul : K) (t : Node K V) : Op K V → Option (Node K V)
  | .set key v => set lt t key v
  | .setNull v => setNull lt nul t v
  | .remove key => remove lt t key

/-- A history of operations of the code, from a new trie. -/
def run (lt : K → K → Bool) (nul : K) (ops : List (Op K V)) : Option (Node K V) :=
  ops.foldlM (step lt nul) create

/-- The lexicographic order of keys; a proper prefix comes first. -/
def lexLt (lt : K → K → Bool) : List K → List K → Bool
  | _, [] => false
  | [], _ :: _ => true
  | a :: as, b :: bs => lt a b || (decide (a = b) && lexLt lt as bs)

/-- Calls the callback for the pairs in order until it returns non-zero. -/
def visit {σ : Type} (f : Callback K V σ) (s : σ) : List (List K × V) → σ × Int
  | [] => (s, 0)
  | (k, v) :: l =>
    match f s k v with
    | (s, r) => if r ≠ 0 then (s, r) else visit f s l

end Yash.Trie
