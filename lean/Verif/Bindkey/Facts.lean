import Verif.Bindkey.Commands
/-! # Facts about the tables, by evaluation -/
set_option autoImplicit false

namespace Yash.Bindkey

set_option maxRecDepth 100000 in
theorem commands_sorted : commands.Pairwise fun a b => strcmp (bytes a.1) (bytes b.1) = .lt := by decide +kernel

theorem identifiers_chars : ∀ i ∈ identifiers, i ≠ [] ∧ i.head? ≠ some '_' ∧ ∀ c ∈ i, ('a' ≤ c ∧ c ≤ 'z') ∨ c = '_' := by decide +kernel

theorem initial_named (m : Mode) : ∀ e ∈ initialKeys m, e.1 ≠ [] ∧ e.2 ∈ identifiers := by
  cases m <;> decide +kernel

theorem initial_distinct (m : Mode) : (initialKeys m).Pairwise fun a b => a.1 ≠ b.1 := by
  cases m <;> decide +kernel

end Yash.Bindkey
