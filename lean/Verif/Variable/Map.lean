/-! # Finite maps from names, as the hash tables of variable.c are used (see C01) -/
set_option autoImplicit false

namespace Yash.Variable

abbrev Name := List Char
abbrev Word := List Char

abbrev Map (α : Type) := List (Name × α)

/-- `ht_get` -/
def get {α : Type} : Map α → Name → Option α
  | [], _ => none
  | e :: m, n => if e.1 = n then some e.2 else get m n

/-- `ht_remove` -/
def remove {α : Type} (m : Map α) (n : Name) : Map α := m.filter fun e => decide (e.1 ≠ n)

/-- `ht_set` -/
def put {α : Type} (m : Map α) (n : Name) (v : α) : Map α := (n, v) :: remove m n

theorem get_remove {α : Type} (m : Map α) (n k : Name) :
    get (remove m n) k = if k = n then none else get m k := by
  induction m with
  | nil => simp [remove, get]
  | cons e m ih =>
    rw [remove, List.filter_cons]
    by_cases h : e.1 ≠ n
    · rw [if_pos (by simpa using h), get, get]
      by_cases hk : e.1 = k
      · rw [if_pos hk, if_pos hk, if_neg (by rw [← hk]; exact h)]
      · rw [if_neg hk, if_neg hk]
        exact ih
    · rw [if_neg (by simpa using h)]
      rw [remove] at ih
      rw [ih, get]
      by_cases hk : k = n
      · rw [if_pos hk, if_pos hk]
      · rw [if_neg hk, if_neg hk, if_neg]
        intro he
        exact h fun hn => hk (he.symm.trans hn)

theorem get_put {α : Type} (m : Map α) (n k : Name) (v : α) :
    get (put m n v) k = if k = n then some v else get m k := by
  rw [put, get, get_remove]
  by_cases hk : k = n
  · rw [if_pos hk.symm, if_pos hk]
  · rw [if_neg (fun h => hk h.symm), if_neg hk, if_neg hk]

end Yash.Variable
