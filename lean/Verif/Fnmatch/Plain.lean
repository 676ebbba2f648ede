import Verif.Fnmatch.Search
/-!
# Words that are not patterns
-/
set_option autoImplicit false

namespace Yash.Fnmatch

open Spec (Tok Atom Items Bracket Reads isKind unquoted Component)

theorem isMatchingBracket_plain {n : Nat} {first : Bool} {c : Char} {r : List Char}
    (h1 : c ≠ ']') (h2 : c ≠ '[') (h3 : c ≠ '\\') :
    isMatchingBracket (n + 1) first (c :: r) = isMatchingBracket n false r := by
  rw [isMatchingBracket]
  · exact fun h => absurd h h2
  · exact fun h => absurd h h1
  · exact fun h => absurd h h3
  · exact fun _ _ h => absurd h h3

theorem isMatchingBracket_items {s : List Char} {ts : List Tok} (h : Items s ts) :
    ∀ (n : Nat) (first : Bool) (rest : List Char), s.length ≤ n →
      (first = true → s.head? ≠ some ']') → isMatchingBracket n first (s ++ rest) = true := by
  induction h with
  | close =>
    intro n first rest hn hf
    match n, hn with
    | n + 1, _ =>
      cases first with
      | true => exact absurd rfl (hf rfl)
      | false => simp [isMatchingBracket]
  | plain c s ts h1 h2 h3 _ ih =>
    intro n first rest hn hf
    match n, hn with
    | n + 1, hn =>
      rw [List.cons_append, isMatchingBracket_plain h1 h2 h3]
      exact ih n false rest (by simpa using hn) (by simp)
  | bracket s ts hk hs ih =>
    intro n first rest hn hf
    match n, hn with
    | n + 1, hn =>
      have := ih n false rest (by simpa using hn) (by simp)
      have hne := items_ne_nil hs
      cases s with
      | nil => exact absurd rfl hne
      | cons k r =>
        have hk := hk k r rfl
        unfold isKind at hk
        unfold isMatchingBracket
        simp only [List.cons_append] at this ⊢
        split <;> simp_all
  | quoted c s ts _ ih =>
    intro n first rest hn hf
    match n, hn with
    | n + 1, hn =>
      have := ih n false rest (by simp at hn; omega) (by simp)
      simpa [isMatchingBracket] using this
  | sym k t s ts hk hf' _ ih =>
    intro n first rest hn hf
    match n, hn with
    | n + 1, hn =>
      have := ih n false rest (by simp at hn; omega) (by simp)
      have hw := wcsstr_close (rest := s ++ rest) hf'
      have e : ('[' :: k :: t ++ k :: ']' :: s) ++ rest
          = '[' :: (k :: (t ++ k :: ']' :: (s ++ rest))) := by simp
      rw [e]
      rcases hk with rfl | rfl | rfl <;> simp only [isMatchingBracket, hw, this]

theorem isMatchingBracket_bracket {body : List Char} {neg : Bool} {ts : List Tok}
    (h : Bracket body neg ts) (rest : List Char) :
    isMatchingBracket ((body ++ rest).length + 1) true (body ++ rest) = true := by
  cases h with
  | first s ts hi =>
    have := isMatchingBracket_items hi ((s ++ rest).length + 1) false rest (by simp; omega) (by simp)
    rw [List.cons_append, isMatchingBracket]
    simpa using this
  | items c s ts h1 _ _ hi =>
    exact isMatchingBracket_items hi _ true rest (by simp; omega) (by simpa using h1)
  | negFirst n s ts hn hi =>
    rcases hn with rfl | rfl <;> simp [isMatchingBracket]
  | neg n c s ts hn h1 hi =>
    have := isMatchingBracket_items hi ((c :: s ++ rest).length + 1) false rest (by simp; omega) (by simp)
    rw [List.cons_append, isMatchingBracket_plain] <;> rcases hn with rfl | rfl <;>
      first | exact this | decide

theorem plain_reads {pat : List Char} {as : List Atom} (h : Reads pat as) :
    isMatchingPattern pat = false → as = (unquoted pat).map Atom.lit := by
  induction h with
  | nil => intro _; rfl
  | backslash => intro _; rfl
  | any | star => intro h; simp [isMatchingPattern] at h
  | quoted c s as _ ih =>
    intro h
    simp only [isMatchingPattern] at h
    simp [unquoted, ih h]
  | set body s neg ts as hb _ ih =>
    intro h
    simp only [List.cons_append, isMatchingPattern, isMatchingBracket_bracket hb s] at h
    simp at h
  | noSet s as _ _ ih =>
    intro h
    simp only [isMatchingPattern, Bool.or_eq_false_iff] at h
    rw [ih h.2]
    simp [unquoted]
  | plain c s as h1 h2 h3 h4 _ ih =>
    intro h
    have : isMatchingPattern s = false := by
      unfold isMatchingPattern at h
      split at h <;> simp_all
    rw [ih this, unquoted]
    · rfl
    · intro h; exact absurd h h3
    · intro d r h; exact absurd h h3

theorem pathname_components (pat : List Char) : ∀ buf : List Char, '/' ∉ buf →
    isPathnameMatchingPattern buf pat = false →
    ∀ comp, Component (buf ++ pat) comp → isMatchingPattern comp = false := by
  have none_left : ∀ (comp b buf : List Char), comp ++ b = buf → '/' ∉ buf →
      (b = [] ∨ ∃ b', b = '/' :: b') → comp = buf := by
    rintro comp b buf rfl hn (rfl | ⟨b', rfl⟩)
    · simp
    · simp at hn
  induction pat with
  | nil =>
    rintro buf hb h comp ⟨a, b, he, hc, ha, hb'⟩
    simp only [List.append_nil] at he
    rcases ha with rfl | ⟨a', rfl⟩
    · rw [none_left comp b buf (by simpa using he.symm) hb hb']
      exact h
    · rw [he] at hb
      simp at hb
  | cons c pat ih =>
    rintro buf hb h comp ⟨a, b, he, hc, ha, hb'⟩
    rw [isPathnameMatchingPattern] at h
    split at h
    · rename_i hcs
      subst hcs
      rw [Bool.or_eq_false_iff] at h
      rcases ha with rfl | ⟨a', rfl⟩
      · -- the first component
        have hpre : comp = buf := by
          simp only [List.nil_append] at he
          rcases hb' with rfl | ⟨b', rfl⟩
          · rw [List.append_nil] at he
            rw [← he] at hc
            simp at hc
          · rcases List.append_eq_append_iff.mp he with ⟨x, h1, h2⟩ | ⟨x, h1, h2⟩
            · cases x with
              | nil => simpa using h1
              | cons y x =>
                simp only [List.cons_append, List.cons.injEq] at h2
                rw [h1, ← h2.1] at hc
                simp at hc
            · cases x with
              | nil => simpa using h1.symm
              | cons y x =>
                simp only [List.cons_append, List.cons.injEq] at h2
                rw [h1, ← h2.1] at hb
                simp at hb
        rw [hpre]
        exact h.1
      · -- a later component
        refine ih [] (by simp) h.2 comp ?_
        have he' : buf ++ '/' :: pat = a' ++ '/' :: (comp ++ b) := by simpa using he
        rcases List.append_eq_append_iff.mp he' with ⟨x, h1, h2⟩ | ⟨x, h1, h2⟩
        · cases x with
          | nil =>
            simp only [List.nil_append, List.cons.injEq, true_and] at h2
            exact ⟨[], b, by simpa using h2, hc, Or.inl rfl, hb'⟩
          | cons y x =>
            simp only [List.cons_append, List.cons.injEq] at h2
            refine ⟨x ++ ['/'], b, by simp [h2.2], hc, Or.inr ⟨x, rfl⟩, hb'⟩
        · cases x with
          | nil =>
            simp only [List.nil_append, List.cons.injEq, true_and] at h2
            exact ⟨[], b, by simpa using h2.symm, hc, Or.inl rfl, hb'⟩
          | cons y x =>
            simp only [List.cons_append, List.cons.injEq] at h2
            rw [h1, ← h2.1] at hb
            simp at hb
    · rename_i hcs
      refine ih (buf ++ [c]) ?_ h comp ⟨a, b, by simpa using he, hc, ha, hb'⟩
      intro hm
      rw [List.mem_append, List.mem_singleton] at hm
      rcases hm with hm | hm
      · exact hb hm
      · exact hcs hm.symm

end Yash.Fnmatch
