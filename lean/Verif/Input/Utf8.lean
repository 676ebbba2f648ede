import Verif.Input.Props
/-!
# C65: an encoding, examples, and what a null byte does
-/
set_option autoImplicit false

namespace Yash.Input

open Spec

/-- UTF-8: the state is the number of continuation bytes to come and the bits so far.  (Overlong
forms of three and four bytes are not rejected; it is only an example.) -/
def utf8 : Decoder (Nat × Nat) where
  step := fun (n, acc) b =>
    let v := b.toNat
    if n = 0 then
      if v < 0x80 then .char (Char.ofNat v) (0, 0)
      else if 0xC2 ≤ v ∧ v < 0xE0 then .more (1, v - 0xC0)
      else if 0xE0 ≤ v ∧ v < 0xF0 then .more (2, v - 0xE0)
      else if 0xF0 ≤ v ∧ v < 0xF5 then .more (3, v - 0xF0)
      else .bad (0, 0)
    else if 0x80 ≤ v ∧ v < 0xC0 then
      if n = 1 then .char (Char.ofNat (acc * 64 + (v - 0x80))) (0, 0)
      else .more (n - 1, acc * 64 + (v - 0x80))
    else .bad (0, 0)

/-- The bytes of "é", a newline and "x". -/
def sample : List Byte := [0xC3, 0xA9, 0x0A, 0x78]

theorem step_lead : utf8.step (0, 0) 0xC3 = .more (1, 3) := by decide +kernel

theorem step_trail : utf8.step (1, 3) 0xA9 = .char 'é' (0, 0) := by decide +kernel

theorem step_newline : utf8.step (0, 0) 0x0A = .char '\n' (0, 0) := by decide +kernel

theorem step_x : utf8.step (0, 0) 0x78 = .char 'x' (0, 0) := by decide +kernel

theorem sample_text : Text utf8 (0, 0) [0xC3, 0xA9, 0x0A] ("é".toList ++ ['\n']) (0, 0) :=
  .cons (0, 0) [0xC3, 0xA9] 'é' (0, 0) [0x0A] ['\n'] (0, 0)
    (.more _ _ (1, 3) _ _ _ step_lead (.last _ _ _ _ step_trail))
    (.cons (0, 0) [0x0A] '\n' (0, 0) [] [] (0, 0) (.last _ _ _ _ step_newline) (.nil _))

/-- The system gives one byte at a time and interrupts in the middle of the character. -/
def slowly : List Ev := [.data 1, .interrupted, .data 1, .again, .data 1, .data 1]

/-- Nonvacuity: from a pipe as well as from a regular file, the line is read, and the rest is left
for the next program. -/
example (regular : Bool) : ∃ r, readInput utf8 512 ⟨sample, 0, regular⟩ ⟨[], 1, (0, 0)⟩ slowly =
    some r ∧ r.status = .ok ∧ r.text = ['é', '\n'] ∧ sample.drop r.pos = [0x78] := by
  have hc : Consistent ⟨sample, 0, regular⟩ (⟨[], 1, (0, 0)⟩ : Info (Nat × Nat)) :=
    ⟨by simp, by simp, by simp, [], rfl⟩
  have hne : NoError slowly := by unfold NoError slowly; decide
  obtain ⟨r, hr⟩ := C65_returns (bufsiz := 512) (by omega) hc hne sample_text (by decide)
    (by decide) (rest := [0x78]) rfl (by decide)
  obtain ⟨h1, h2, _, _, _, h6⟩ := C65_line_read (bufsiz := 512) (by omega) hc hne sample_text
    (by decide) (by decide) (rest := [0x78]) rfl hr
  exact ⟨r, hr, h1, h2, h6 rfl⟩

/-- Nonvacuity of the last line. -/
example : ∃ r, readInput utf8 512 ⟨sample, 3, false⟩ ⟨[], 1, (0, 0)⟩ [.data 1, .data 1] = some r ∧
    r.status = .ok ∧ r.text = ['x'] := by
  have hc : Consistent ⟨sample, 3, false⟩ (⟨[], 1, (0, 0)⟩ : Info (Nat × Nat)) :=
    ⟨by simp [sample], by simp, by simp, _, (List.append_nil _).symm⟩
  have hne : NoError [.data 1, .data 1] := by unfold NoError; decide
  have ht : Text utf8 (0, 0) (unread ⟨sample, 3, false⟩ (⟨[], 1, (0, 0)⟩ : Info (Nat × Nat)))
      ['x'] (0, 0) :=
    .cons (0, 0) [0x78] 'x' (0, 0) [] [] (0, 0) (.last _ _ _ _ step_x) (.nil _)
  have hl : Line ['x'] := ⟨by decide, fun a b hab => by
    have : '\n' ∈ ['x'] := by rw [hab]; simp
    simp at this⟩
  obtain ⟨r, hr⟩ := (readInput_good (bufsiz := 512) (rest := []) (by omega) hc hne ht hl (by simp)
    (.inr rfl)).2 (by simp [reads, unread, sample])
  obtain ⟨h1, _, h2, _⟩ := C65_last_line_read (bufsiz := 512) (by omega) hc hne ht (by decide)
    (by decide) hr
  exact ⟨r, hr, h1.2 (by simp), h2⟩

/-- Nonvacuity of the sequence: two lines, of which the second one is empty. -/
example (scheds : List (List Ev)) (hlen : scheds.length = 2) (hne : ∀ s ∈ scheds, NoError s)
    (out : List (Status × List Char)) (f' : File) (info' : Info (Nat × Nat))
    (h : readLines utf8 512 ⟨[0xC3, 0xA9, 0x0A, 0x0A, 0x78], 0, true⟩ ⟨[], 1, (0, 0)⟩ scheds =
      some (out, f', info')) :
    out = [(.ok, ['é', '\n']), (.ok, ['\n'])] ∧ unread f' info' = [0x78] := by
  have ht : Text utf8 (0, 0) [0xC3, 0xA9, 0x0A, 0x0A] (["é".toList, []].flatMap (· ++ ['\n']))
      (0, 0) :=
    .cons (0, 0) [0xC3, 0xA9] 'é' (0, 0) [0x0A, 0x0A] ['\n', '\n'] (0, 0)
      (.more _ _ (1, 3) _ _ _ step_lead (.last _ _ _ _ step_trail))
      (.cons (0, 0) [0x0A] '\n' (0, 0) [0x0A] ['\n'] (0, 0) (.last _ _ _ _ step_newline)
        (.cons (0, 0) [0x0A] '\n' (0, 0) [] [] (0, 0) (.last _ _ _ _ step_newline) (.nil _)))
  obtain ⟨h1, h2, _⟩ := C65_lines_read (bufsiz := 512) (by omega) (rest := [0x78])
    ["é".toList, []] scheds _ _ _ _ ⟨by simp, by simp, by simp, [], rfl⟩ hlen hne
    (by intro l hl; simp at hl; rcases hl with rfl | rfl <;> decide) ht rfl _ _ _ h
  exact ⟨h1, h2⟩

/-- A null byte in the buffer is never passed: every later call ends at once without reading
anything, whatever file the standard input has become in the meantime (unless it is a regular
one). -/
theorem C65_nul_never_passed {S : Type} {D : Decoder S} (bufsiz : Nat) (f : File)
    (hf : f.regular = false) (info : Info S) (hD : D.step info.state 0 = .char '\x00' info.state)
    (p : List Byte) (hp : info.pending = 0 :: p) (sched : List Ev) :
    readInput D bufsiz f info sched = some ⟨.eof, [], f.pos, info.pending, info.state⟩ := by
  rw [readInput, if_neg (by simp [hf]), plain, if_neg (by simp [hp])]
  rw [convert, dif_neg (by simp [hp])]
  simp [hp, mbrtowc, hD, finish]

/-- The situation arises: a null byte that comes from a pipe stays in the buffer. -/
theorem C65_nul_stays {S : Type} {D : Decoder S} (bufsiz : Nat) (s : S)
    (hD : D.step s 0 = .char '\x00' s) (rest : List Byte) :
    readInput D bufsiz ⟨0 :: rest, 0, false⟩ ⟨[], 1, s⟩ [.data 1] = some ⟨.eof, [], 1, [0], s⟩ := by
  rw [readInput, if_neg (by simp), plain, if_pos rfl]
  have hch : ((0 :: rest).drop 0).take (min (max 1 1) 1) = [(0 : Byte)] := by simp
  simp only [fill, hch]
  rw [convert, dif_neg (by simp)]
  simp [mbrtowc, hD, finish]

/-- Nonvacuity of the assumption about the encoding, for the initial state of UTF-8. -/
example : utf8.step (0, 0) 0 = .char '\x00' (0, 0) := by decide +kernel

end Yash.Input
