import Verif.Buf.ConvProps
/-! # Examples for property C92 -/
set_option autoImplicit false

namespace Yash.Buf.ConvExamples

open Spec

/-- A small encoding of the numbers below 1000: those below 128 take one byte, the others two. -/
def enc (c : Nat) : Option (List Nat) := if c = 0 then none else if c < 128 then some [c] else if c < 1000 then some [128 + c / 128, 1 + c % 128] else none

def dec : List Nat → Option (Nat × Nat)
  | [] => none
  | a :: s =>
    if a = 0 then none
    else if a < 128 then some (1, a)
    else
      match s with
      | [] => none
      | b :: _ => if a ≤ 135 ∧ 0 < b ∧ b ≤ 128 ∧ 128 ≤ (a - 128) * 128 + (b - 1) then some (2, (a - 128) * 128 + (b - 1)) else none

def C : Codec Nat Nat Unit := ⟨(), fun _ c => (enc c).map fun b => (b, ()), fun _ => [], 2, fun _ s => (dec s).map fun r => (r.1, r.2, ())⟩

def k : Kind Nat := ⟨0, 10⟩
def kw : Kind Nat := ⟨0, 8⟩

theorem lawful : Lawful C := by
  refine ⟨?_, ?_, ?_⟩
  · intro ps c bs ps' h
    simp only [C, enc] at h ⊢
    split at h
    · cases h
    · split at h
      · cases h; simp
      · split at h
        · cases h; simp
        · cases h
  · intro ps; simp [C]
  · intro ps s n c ps' h
    simp only [C, Option.map_eq_some_iff] at h
    obtain ⟨r, h1, h2⟩ := h
    cases h2
    cases s with
    | nil => cases h1
    | cons a s =>
      simp only [dec] at h1
      split at h1
      · cases h1
      · split at h1
        · cases h1; simp
        · cases s with
          | nil => cases h1
          | cons b s =>
            simp only at h1
            split at h1
            · cases h1; simp
            · cases h1

theorem inverse (ps : Unit) (c : Nat) (bs : List Nat) (ps' : Unit) (h : C.enc ps c = some (bs, ps')) :
    k.nul ∉ bs ∧ ∀ rest, C.dec ps (bs ++ rest) = some (bs.length, c, ps') := by
  simp only [C, enc] at h ⊢
  split at h
  · cases h
  · next h0 =>
    split at h
    · next h1 =>
      cases h
      refine ⟨by simp [k]; omega, fun rest => ?_⟩
      simp [dec, h0, h1]
    · next h1 =>
      split at h
      · next h2 =>
        cases h
        refine ⟨by simp [k]; omega, fun rest => ?_⟩
        have e : (128 + c / 128 - 128) * 128 + (1 + c % 128 - 1) = c := by omega
        simp only [List.cons_append, List.nil_append, dec]
        rw [if_neg (by omega), if_neg (by omega)]
        simp only [e]
        rw [if_pos (by omega)]
        rfl
      · cases h

/-- A block with room for three bytes. -/
def b0 : Buffer Nat := ⟨[some 65, some 0, none, none], 1, 3⟩

theorem b0_holds : Holds k b0 [65] := ⟨rfl, by decide, rfl, [none, none], rfl⟩

example : (sbWcsncat k C 6 b0 [300, 66, 999, 67] 9 ()).map (fun r => (r.1.cells.take r.1.length, r.2.1)) =
    some ([some 65, some 130, some 45, some 66, some 135, some 104, some 67], none) := by decide +kernel
example : (sbWcsncat k C 6 b0 [300, 66, 999, 67] 2 ()).map (fun r => (r.1.cells.take (r.1.length + 1), r.2.1)) = some ([some 65, some 130, some 45, some 66, some 0], none) := by decide +kernel
/-- A character that cannot be converted: of what is before it, only what the first round has converted is appended. -/
example : (sbWcsncat k C 6 b0 [300, 66, 1000, 67] 9 ()).map (fun r => (r.1.cells.take (r.1.length + 1), r.2.1)) = some ([some 65, some 130, some 45, some 0], some [1000, 67]) := by decide +kernel
example : (sbWccat k C b0 (some 300) ()).map (fun r => (r.1.cells.take (r.1.length + 1), r.2.1)) = some ([some 65, some 130, some 45, some 0], true) := by decide +kernel
/-- The block is filled to the last cell before it grows. -/
example : (wbMbscat kw C 9 b0 [130, 45, 66, 135, 104, 67]).map (fun r => (r.1.cells.take (r.1.length + 1), r.2)) = some ([some 65, some 300, some 66, some 999, some 67, some 0], none) := by decide +kernel
example : (wbMbscat kw C 9 b0 [130, 45, 66, 255, 104, 67]).map (fun r => (r.1.cells.take (r.1.length + 1), r.2)) = some ([some 65, some 0], some [255, 104, 67]) := by decide +kernel
example : (sbVprintf k b0 (some [1, 2, 3, 4, 5]) []).map (fun r => (r.1.cells.take (r.1.length + 1), r.2)) = some ([some 65, some 1, some 2, some 3, some 4, some 5, some 0], some 5) := by decide +kernel
example : (sbVprintf k b0 none [7, 7, 7, 7]).map (fun r => (r.1.cells, r.2)) = some ([some 65, some 0, some 7, some 7], none) := by decide +kernel
example : (wbVwprintf k false b0 (some [1, 2, 3, 4, 5]) [9, 9]).map (fun r => (r.1.cells.take (r.1.length + 1), r.2)) = some ([some 65, some 1, some 2, some 3, some 4, some 5, some 0], some 5) := by decide +kernel
example : joinwcsarray k [[1, 2], [], [3]] [8, 9] = some [some 1, some 2, some 8, some 9, some 8, some 9, some 3, some 0] := by decide +kernel
example : joinwcsarray k [] [8, 9] = some [some 0] := by decide +kernel

/-- The hypotheses of the theorem on round trips are met. -/
example : ∃ r, mallocWcsntombs k C 9 [300, 66, 999] 1000 = some r ∧ (∃ b bs, r = some b ∧ Holds k b bs ∧ ∃ b', mallocMbstowcs kw C 20 bs = some (some b') ∧ Holds kw b' [300, 66, 999]) := by
  obtain ⟨r, h1, h2⟩ := C92_round_trip (kb := k) (kw := kw) lawful (fun _ => rfl) inverse [300, 66, 999] 1000 (by decide) 9 (by decide)
  have hr : (mallocWcsntombs k C 9 [300, 66, 999] 1000).map (fun r => r.map fun b => b.length) = some (some 5) := by decide +kernel
  refine ⟨r, h1, ?_⟩
  rcases h2 with ⟨rfl, _⟩ | ⟨b, bs, rfl, g1, _, g2⟩
  · rw [h1] at hr; cases hr
  · rw [h1] at hr
    have hl : b.length = 5 := by simpa using hr
    have := g1.len
    exact ⟨b, bs, rfl, g1, g2 20 (by omega)⟩

end Yash.Buf.ConvExamples
