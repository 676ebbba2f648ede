import Verif.Pipe.Spec
import Verif.Redir.Lemmas
/-!
# Lemmas about pipes
-/
set_option autoImplicit false

namespace Yash.Pipe

open Redir (Fds Entry lowest xclose xdup2 lowest_some lowest_none xdup2_ok)
open Spec (Connected Room Fresh)

variable {D : Type}

theorem lowest_least {limit n : Nat} {t : Fds D} (h : lowest limit 0 t = some n) :
    ∀ m, m < n → t m ≠ none := by
  intro m hm ht
  have hn := (lowest_some h).1
  unfold lowest at h
  rw [List.find?_range_eq_some] at h
  have := h.2.2 m hm
  simp [ht] at this

/-- Two entries are added. -/
def two (S : Sys D) (i r w : Nat) (t : Fds D) : Fds D :=
  fun n => if n = w then some ⟨S.writer i, false⟩ else if n = r then some ⟨S.reader i, false⟩ else t n

theorem sysPipe_spec {S : Sys D} {i r w : Nat} {t t' : Fds D} (h : sysPipe S i t = some (r, w, t')) :
    S.pipeFails i = false ∧ r < w ∧ w < S.limit ∧ t r = none ∧ t w = none ∧
      (∀ m, m < w → m ≠ r → t m ≠ none) ∧ t' = two S i r w t := by
  unfold sysPipe at h
  split at h
  · cases h
  rename_i hf
  split at h
  · cases h
  rename_i r' hr
  split at h
  · cases h
  rename_i w' hw
  simp only [Option.some.injEq, Prod.mk.injEq] at h
  obtain ⟨rfl, rfl, h⟩ := h
  obtain ⟨r1, -, r2⟩ := lowest_some hr
  obtain ⟨w1, -, w2⟩ := lowest_some hw
  have hl := lowest_least hr
  have hlw := lowest_least hw
  have hne : w' ≠ r' := by
    rintro rfl
    simp [Fds.set] at w2
  have w3 : t w' = none := by simpa [Fds.set, hne] using w2
  have hlt : r' < w' := by
    rcases Nat.lt_trichotomy r' w' with h | h | h
    · exact h
    · exact absurd h.symm hne
    · exact absurd w3 (hl _ h)
  refine ⟨by simpa using hf, hlt, w1, r2, w3, ?_, ?_⟩
  · intro m hm hmr
    have := hlw m hm
    simpa [Fds.set, hmr] using this
  · rw [← h]
    funext n
    simp only [Fds.set, two]

/-- What `next_pipe` obtains: two free descriptors other than 0 and 1. -/
structure Opened (S : Sys D) (r w : Nat) (t : Fds D) : Prop where
  ne : r ≠ w
  r2 : 2 ≤ r
  w2 : 2 ≤ w
  rl : r < S.limit
  wl : w < S.limit
  rt : t r = none
  wt : t w = none

theorem dup_spec {S : Sys D} {fd : Nat} {t : Fds D} {e : Entry D} (he : t fd = some e)
    (hc : e.cloexec = false) :
    (dup S fd t = (none, t) ∧ ∀ n, n < S.limit → t n ≠ none) ∨
      ∃ n, dup S fd t = (some n, t.set n (some e)) ∧ n < S.limit ∧ t n = none := by
  unfold dup
  rw [he]
  simp only
  cases hl : lowest S.limit 0 t with
  | none => exact Or.inl ⟨rfl, fun n hn => lowest_none hl n hn (Nat.zero_le _)⟩
  | some n =>
    obtain ⟨h1, -, h2⟩ := lowest_some hl
    refine Or.inr ⟨n, ?_, h1, h2⟩
    cases e
    simp only at hc
    subst hc
    rfl

theorem moveEnds_spec {S : Sys D} {i r w : Nat} {t : Fds D} (hlt : r < w) (hw : w < S.limit)
    (hr : t r = none) (hwt : t w = none) (hmin : ∀ m, m < w → m ≠ r → t m ≠ none) :
    (moveEnds S r w (two S i r w t) = (none, t) ∧
      ∃ a b c : Nat, ∀ n, n < S.limit → t n = none → n = a ∨ n = b ∨ n = c) ∨
    ∃ r' w', moveEnds S r w (two S i r w t) = (some (r', w'), two S i r' w' t) ∧ Opened S r' w' t := by
  by_cases hr2 : r < 2
  · have hdr : two S i r w t r = some ⟨S.reader i, false⟩ := by
      simp [two, Nat.ne_of_lt hlt]
    by_cases hw2 : w < 2
    · have h0 : r = 0 := by omega
      have h1 : w = 1 := by omega
      subst h0 h1
      rcases dup_spec (S := S) hdr rfl with ⟨hd, hfull⟩ | ⟨a, hd, ha, hat⟩
      · rcases dup_spec (S := S) (t := two S i 0 1 t) (fd := 1) (e := ⟨S.writer i, false⟩) (by simp [two]) rfl with
          ⟨hd', -⟩ | ⟨b, -, hb, hbt⟩
        · refine Or.inl ⟨?_, 0, 1, 0, ?_⟩
          · simp only [moveEnds, Nat.lt_irrefl, Nat.zero_lt_two, Nat.one_lt_two, or_self, if_true, hd, hd', closeOpt]
            congr 1
            funext n
            simp only [xclose, Fds.set, two]
            grind
          · intro n hn ht
            have := hfull n hn
            simp only [two] at this
            grind
        · exact absurd hbt (hfull b hb)
      · have ha0 : a ≠ 0 ∧ a ≠ 1 ∧ t a = none := by
          simp only [two] at hat
          grind
        have hw' : ((two S i 0 1 t).set a (some ⟨S.reader i, false⟩)) 1 = some ⟨S.writer i, false⟩ := by
          simp [Fds.set, two, ha0.2.1.symm]
        rcases dup_spec (S := S) hw' rfl with ⟨hd', hfull⟩ | ⟨b, hd', hb, hbt⟩
        · refine Or.inl ⟨?_, 0, 1, a, ?_⟩
          · simp only [moveEnds, Nat.zero_lt_two, Nat.one_lt_two, or_self, if_true, hd, hd']
            congr 1
            funext n
            simp only [xclose, Fds.set, two]
            grind
          · intro n hn ht
            have := hfull n hn
            simp only [two, Fds.set] at this
            grind
        · have hb0 : b ≠ 0 ∧ b ≠ 1 ∧ b ≠ a ∧ t b = none := by
            simp only [two, Fds.set] at hbt
            grind
          refine Or.inr ⟨a, b, ?_, ⟨hb0.2.2.1.symm, by omega, by omega, ha, hb, ha0.2.2, hb0.2.2.2⟩⟩
          simp only [moveEnds, Nat.zero_lt_two, Nat.one_lt_two, or_self, if_true, hd, hd']
          congr 1
          funext n
          simp only [xclose, Fds.set, two]
          grind
    · have hocc : ∀ m, m < 2 → two S i r w t m ≠ none := by
        intro m hm
        simp only [two]
        have := hmin m
        grind
      rcases dup_spec (S := S) hdr rfl with ⟨hd, hfull⟩ | ⟨a, hd, ha, hat⟩
      · refine Or.inl ⟨?_, r, w, r, ?_⟩
        · simp only [moveEnds, hr2, hw2, true_or, if_true, if_false, hd, closeOpt]
          congr 1
          funext n
          simp only [xclose, Fds.set, two]
          grind
        · intro n hn ht
          have := hfull n hn
          simp only [two] at this
          grind
      · have ha0 : a ≠ r ∧ a ≠ w ∧ t a = none := by
          simp only [two] at hat
          grind
        have ha2 : 2 ≤ a := by
          rcases Nat.lt_or_ge a 2 with h | h
          · exact absurd hat (hocc a h)
          · exact h
        refine Or.inr ⟨a, w, ?_, ⟨ha0.2.1, ha2, by omega, ha, hw, ha0.2.2, hwt⟩⟩
        simp only [moveEnds, hr2, hw2, true_or, if_true, if_false, hd]
        congr 1
        funext n
        simp only [xclose, Fds.set, two]
        grind
  · refine Or.inr ⟨r, w, ?_, ⟨by omega, by omega, by omega, by omega, hw, hr, hwt⟩⟩
    have : ¬ (r < 2 ∨ w < 2) := by omega
    simp only [moveEnds, this, if_false]

end Yash.Pipe
