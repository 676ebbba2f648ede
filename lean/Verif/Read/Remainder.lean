import Verif.Read.Parts
/-! # Lemmas: the remainder of the line from a field on -/
set_option autoImplicit false

namespace Yash.Read

open Yash.Expand Yash.Expand.Spec Yash.Read.Spec

theorem allFields_loopL (L : Locale) (ifs : List Char) (w : CWord) :
    allFields L.space ifs w = loopL (isIfsWhitespace L ifs) (isNonIfsChar ifs) w false := by
  rw [loopL_spec]
  obtain ⟨h, t, h1⟩ := List.exists_cons_of_ne_nil (cut_ne_nil (isSep L.space ifs) w)
  simp only [specFrom, allFields, h1, List.flatMap_cons]
  rfl

theorem isIfsChar_iff (ifs : List Char) (c : CChar) :
    isIfsChar ifs c = true ↔ splittable ifs c := by
  obtain ⟨c, o, q, m⟩ := c
  simp only [isIfsChar, splittable]
  cases o <;> cases q <;> cases m <;> simp

theorem isIfsWhitespace_iff (L : Locale) (ifs : List Char) (c : CChar) :
    isIfsWhitespace L ifs c = true ↔ splittable ifs c ∧ L.space c.1 = true := by
  simp [isIfsWhitespace, isIfsChar_iff]

theorem white_not_nonIfs (L : Locale) (ifs : List Char) (c : CChar)
    (h : isIfsWhitespace L ifs c = true) : isNonIfsChar ifs c = false := by
  simp only [isIfsWhitespace, Bool.and_eq_true] at h
  simp [isNonIfsChar, h.1]

/-- All there is to know about the spans that `extract_fields` finds. -/
theorem extractFields_parts (L : Locale) (emptylast : Bool) (ifs : List Char) (w : CWord) :
    ∃ (sp : List Span) (tail : Nat), (extractFields L emptylast ifs w).2 = tail ∧
      (∀ (k : Nat) (s : Span), (extractFields L emptylast ifs w).1[k]? = some s → sp[k]? = some s) ∧
      (∀ s ∈ sp, s.1 ≤ s.2 ∧ s.2 ≤ w.length) ∧ tail ≤ w.length ∧
      (∀ c ∈ w.drop tail, isIfsWhitespace L ifs c = true) ∧
      (∀ k a b : Nat, sp[k]? = some (a, b) →
        a ≤ w.length ∧ allFields L.space ifs (w.drop a) = (allFields L.space ifs w).drop k ∧
        Before false (allFields L.space ifs (w.take a)) ((allFields L.space ifs w).take k) ∧
        (∀ c ∈ (w.drop a).head?, isIfsWhitespace L ifs c = false)) ∧
      (tail = 0 ∨ ∃ c, w[tail - 1]? = some c ∧ isIfsWhitespace L ifs c = false) := by
  obtain ⟨sp, tail, h1, h2, h3, h4, h5, h6, h7⟩ :=
    extractLoop_spec (isIfsWhitespace L ifs) (isNonIfsChar ifs) w w 0 false [] (by simp)
      (Nat.zero_le _)
  obtain ⟨g1, g2⟩ := extractLoop_parts (white_not_nonIfs L ifs) w w 0 false [] (by simp)
    (Nat.zero_le _) sp tail h1
  refine ⟨sp, tail, ?_, ?_, h3, h5, h6, ?_, g2 (.inl rfl)⟩
  · simp only [extractFields, h1]
  · intro k s hk
    simp only [extractFields, h1, List.nil_append] at hk
    split at hk
    · split at hk
      · split at hk
        · rw [List.getElem?_dropLast] at hk
          split at hk
          · exact hk
          · cases hk
        · exact hk
      · exact hk
    · exact hk
  · intro k a b hk
    obtain ⟨_, a2, a3, a4, a5⟩ := g1 k a b hk
    simp only [List.drop_zero, Nat.sub_zero] at a4
    simp only [allFields_loopL]
    exact ⟨a2, a3, a4, a5⟩

theorem fields_of_before {space : Char → Bool} {ifs : List Char} {w : CWord} {T : List CWord}
    (h : Before false (allFields space ifs w) T) : fields space false ifs w = T := by
  simp only [fields, true_or, and_true]
  rcases h with h | ⟨h1, h2, h3⟩
  · rw [h]; simp
  · rw [if_neg h3, h1]

theorem fields_length_le (space : Char → Bool) (emptylast : Bool) (ifs : List Char) (w : CWord) :
    (fields space emptylast ifs w).length ≤ (allFields space ifs w).length := by
  simp only [fields]; split <;> simp

/-- The part of the line from a field on. -/
theorem remainder (L : Locale) (emptylast : Bool) (ifs : List Char) (w : CWord) (k a b : Nat)
    (hk : (extractFields L emptylast ifs w).1[k]? = some (a, b))
    (hmore : k + 1 < (fields L.space emptylast ifs w).length) :
    a ≤ (extractFields L emptylast ifs w).2 ∧
    Remainder L.space emptylast ifs w k (slice w (a, (extractFields L emptylast ifs w).2)) := by
  obtain ⟨sp, tail, e1, e2, e3, e4, e5, e6, e7⟩ := extractFields_parts L emptylast ifs w
  rw [e1]
  obtain ⟨h1, h2, h3, h4⟩ := e6 k a b (e2 k _ hk)
  have hmore' : k + 1 < (allFields L.space ifs w).length :=
    Nat.lt_of_lt_of_le hmore (fields_length_le _ _ _ _)
  have hwhite : ∀ v : CWord, (∀ c ∈ v, isIfsWhitespace L ifs c = true) →
      allFields L.space ifs v = [[]] := by
    intro v hv
    rw [allFields_loopL]
    exact loopL_white v false hv
  have hlt : a < tail := by
    apply Classical.byContradiction
    intro hle
    have : allFields L.space ifs (w.drop a) = [[]] := by
      apply hwhite
      intro c hc
      apply e5
      have : w.drop a = (w.drop tail).drop (a - tail) := by rw [List.drop_drop]; congr 1; omega
      rw [this] at hc
      exact List.mem_of_mem_drop hc
    rw [this] at h2
    have := congrArg List.length h2
    simp at this
    omega
  refine ⟨Nat.le_of_lt hlt, w.take a, w.drop tail, ?_, ?_, ?_, ?_, ?_, ?_⟩
  · simp only [slice]
    have : w.drop tail = (w.drop a).drop (tail - a) := by rw [List.drop_drop]; congr 1; omega
    rw [this, List.append_assoc, List.take_append_drop, List.take_append_drop]
  · exact fun c hc => (isIfsWhitespace_iff L ifs c).1 (e5 c hc)
  · intro c hc
    rw [← isIfsWhitespace_iff L ifs c]
    have hc' : c ∈ (w.drop a).head? := by
      simp only [slice] at hc
      rw [List.head?_take] at hc
      split at hc
      · simp at hc
      · exact hc
    simp [h4 c hc']
  · intro c hc
    rw [← isIfsWhitespace_iff L ifs c]
    rcases e7 with h | ⟨d, hd1, hd2⟩
    · omega
    · have : (slice w (a, tail)).getLast? = some d := by
        have hlen : (slice w (a, tail)).length = tail - a := by simp [slice]; omega
        rw [List.getLast?_eq_getElem?, hlen]
        simp only [slice]
        rw [List.getElem?_take_of_lt (by omega), List.getElem?_drop, ← hd1]
        congr 1
        omega
      rw [this] at hc
      cases hc
      simp [hd2]
  · rw [fields_of_before h3]
    simp only [fields]
    split
    · rename_i hs
      rw [List.dropLast_eq_take, List.take_take]
      congr 1
      omega
    · rfl
  · have hrest : slice w (a, tail) ++ w.drop tail = w.drop a := by
      simp only [slice]
      have : w.drop tail = (w.drop a).drop (tail - a) := by rw [List.drop_drop]; congr 1; omega
      rw [this, List.take_append_drop]
    rw [hrest]
    simp only [fields, h2]
    have hlast : ((allFields L.space ifs w).drop k).getLast? = (allFields L.space ifs w).getLast? := by
      rw [List.getLast?_drop, if_neg (by omega)]
    rw [hlast]
    have hl1 : ((allFields L.space ifs w).drop k).length ≠ 1 := by simp; omega
    have hl2 : (allFields L.space ifs w).length ≠ 1 := by omega
    simp only [hl1, hl2, or_false]
    split
    · rw [List.dropLast_eq_take, List.dropLast_eq_take, List.drop_take]
      congr 1
      simp
      omega
    · rfl

end Yash.Read
