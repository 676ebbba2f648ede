/-! General list facts used in several components. -/
set_option autoImplicit false

namespace Yash.Util

theorem of_mem_takeWhile {α : Type} {p : α → Bool} {a : α} : ∀ {l : List α}, a ∈ l.takeWhile p → p a = true
  | [], h => by simp at h
  | b :: l, h => by
    rw [List.takeWhile_cons] at h
    split at h
    · rename_i hb
      rcases List.mem_cons.1 h with rfl | h
      · exact hb
      · exact of_mem_takeWhile h
    · simp at h

end Yash.Util
