import Verif.Input.Utf8
import Verif.Read.Unique
/-!
# C65 and C66 together: what `read` takes from the file

The loop of `read_with_prompt` with the model of `read_input` (`Verif/Input/Model.lean`) instead of
the text of the input.
-/
set_option autoImplicit false

namespace Yash.Read

open Yash.Expand Yash.Input Yash.Input.Spec

/-- variable.c:2843-2880 `read_with_prompt` with 2932-2940 `read_one_line`, without a prompt.  One
list of events for each call of `read_input`; an error is `none`, as is the lack of events. -/
def readFile {S : Type} (D : Decoder S) (bufsiz : Nat) (raw : Bool) :
    File → Info S → List (List Ev) → Option (CWord × File × Info S)
  | _, _, [] => none
  | f, info, sched :: scheds =>
    match readInput D bufsiz f info sched with
    | none => none
    | some r =>
      let x := after f info r
      if r.status = .error then none
      else if raw then some (r.text.map fun c => (c, soft), x)
      else if (unescapeLine r.text).2 then some ((unescapeLine r.text).1, x)
      else
        match readFile D bufsiz raw x.1 x.2 scheds with
        | none => none
        | some (w, y) => some ((unescapeLine r.text).1 ++ w, y)

/-- The line that `readOneLine` takes is a line. -/
theorem readOneLine_spec (t : List Char) :
    (∃ l, '\n' ∉ l ∧ (readOneLine t).1 = l ++ ['\n'] ∧ t = l ++ ['\n'] ++ (readOneLine t).2) ∨
    ('\n' ∉ t ∧ readOneLine t = (t, [])) := by
  induction t with
  | nil => exact .inr ⟨by simp, rfl⟩
  | cons c t ih =>
    by_cases hc : c = '\n'
    · subst hc
      exact .inl ⟨[], by simp, by simp [readOneLine], by simp [readOneLine]⟩
    · rw [readOneLine_cons hc]
      rcases ih with ⟨l, h1, h2, h3⟩ | ⟨h1, h2⟩
      · left
        refine ⟨c :: l, by simp [h1, Ne.symm hc], by simp [h2], ?_⟩
        simpa using h3
      · right
        exact ⟨by simp [h1, Ne.symm hc], by simp [h2]⟩

theorem text_nil_chars {S : Type} {D : Decoder S} {s s' : S} {bytes : List Byte}
    (h : Text D s bytes [] s') : bytes = [] ∧ s = s' := by
  generalize hcs : ([] : List Char) = cs at h
  cases h with
  | nil => exact ⟨rfl, rfl⟩
  | cons => cases hcs

/-- **C65.** If the bytes that have not been read yet stand for a text without null characters,
`read` sees this text as `readWithPrompt` does (C66), and the bytes that it leaves stand for the
rest of the text.  With the one-byte buffer of the standard input, the rest is in the file, after
the offset. -/
theorem C65_read_takes_its_line {S : Type} {D : Decoder S} {bufsiz : Nat} (hbuf : 1 < bufsiz)
    (raw : Bool) {s' : S} :
    ∀ (scheds : List (List Ev)) (f : File) (info : Info S) (t : List Char),
      Consistent f info → (∀ sched ∈ scheds, NoError sched) → '\x00' ∉ t →
      Text D info.state (unread f info) t s' →
      ∀ w f' info', readFile D bufsiz raw f info scheds = some (w, f', info') →
        w = (readWithPrompt raw t).1 ∧ Consistent f' info' ∧
        Text D info'.state (unread f' info') (readWithPrompt raw t).2 s' ∧
        (info.size = 1 → info'.pending = [] ∧ info'.size = 1) := by
  intro scheds
  induction scheds with
  | nil => intro f info t _ _ _ _ w f' info' h; simp [readFile] at h
  | cons sched scheds ih =>
    intro f info t hc hne hnul ht w f' info' h
    simp only [readFile] at h
    split at h
    · cases h
    · rename_i r hr
      have key : r.status ≠ .error ∧ r.text = (readOneLine t).1 ∧
          Consistent (after f info r).1 (after f info r).2 ∧
          Text D (after f info r).2.state (unread (after f info r).1 (after f info r).2)
            (readOneLine t).2 s' ∧ (info.size = 1 → r.pending = []) := by
        rcases readOneLine_spec t with ⟨l, h1, h2, h3⟩ | ⟨h1, h2⟩
        · rw [h3] at ht
          obtain ⟨b1, b2, s1, e1, e2, e3⟩ := text_split ht
          have hl0 : '\x00' ∉ l := fun hm => hnul (by rw [h3]; simp [hm])
          obtain ⟨g1, g2, g3, g4, g5, _⟩ := C65_line_read hbuf hc (hne _ (by simp)) e2 h1 hl0 e1 hr
          have g := (readInput_good hbuf hc (hne sched (by simp)) e2 (by
            refine ⟨by simp [hl0], fun a b hab => ?_⟩
            rcases List.eq_nil_or_concat b with rfl | ⟨b', x, rfl⟩
            · rfl
            · exfalso
              rw [List.concat_eq_append, ← List.cons_append, ← List.append_assoc] at hab
              have := (List.append_inj' hab rfl).1
              exact h1 (by simp [this])) e1 (.inl (by simp))).1 r hr
          refine ⟨by rw [g1]; simp, by rw [g2, h2], g5, ?_, g.pending⟩
          rw [g4]
          show Text D r.state b2 _ s'
          rw [g3]
          exact e3
        · obtain ⟨g1, g2, g3, g4, g5, g6⟩ := C65_last_line_read hbuf hc (hne _ (by simp)) ht h1 hnul
            hr
          have g := (readInput_good (rest := []) hbuf hc (hne sched (by simp)) ht
            ⟨hnul, fun a b hab => absurd (by simp [hab]) h1⟩ (by simp) (.inr rfl)).1 r hr
          refine ⟨?_, by rw [g3, h2], g6, ?_, g.pending⟩
          · by_cases h0 : t = []
            · rw [g2.2 h0]; simp
            · rw [g1.2 h0]; simp
          · rw [g5, h2]
            show Text D r.state [] [] s'
            rw [g4]
            exact .nil _
      obtain ⟨k1, k2, k3, k4, k5⟩ := key
      rw [if_neg k1] at h
      cases raw with
      | true =>
        simp only [if_true, Option.some.injEq] at h
        have hrw : readWithPrompt true t =
            ((readOneLine t).1.map fun c => (c, soft), (readOneLine t).2) := by
          rw [readWithPrompt]; rfl
        rw [hrw]
        simp only [Prod.mk.injEq] at h
        obtain ⟨rfl, h⟩ := h
        rw [Prod.ext_iff] at h
        obtain ⟨rfl, rfl⟩ := h
        exact ⟨by rw [k2], k3, k4, fun h => ⟨k5 h, h⟩⟩
      | false =>
        rw [rwp_unfold, ← k2]
        rw [if_neg (by simp)] at h
        split at h
        · rename_i hd
          rw [if_pos hd]
          simp only [Option.some.injEq, Prod.mk.injEq] at h
          obtain ⟨rfl, h⟩ := h
          rw [Prod.ext_iff] at h
          obtain ⟨rfl, rfl⟩ := h
          exact ⟨rfl, k3, k4, fun h => ⟨k5 h, h⟩⟩
        · rename_i hd
          rw [if_neg hd]
          split at h
          · cases h
          · rename_i w1 y hy
            have hrest : '\x00' ∉ (readOneLine t).2 := by
              intro hm
              rcases readOneLine_spec t with ⟨l, _, _, h3⟩ | ⟨_, h2⟩
              · exact hnul (by rw [h3]; simp [hm])
              · rw [h2] at hm; simp at hm
            obtain ⟨i1, i2, i3, i4⟩ := ih _ _ (readOneLine t).2 k3
              (fun x hx => hne x (by simp [hx])) hrest k4 _ _ _ hy
            simp only [Option.some.injEq, Prod.mk.injEq] at h
            obtain ⟨rfl, h⟩ := h
            rw [Prod.ext_iff] at h
            obtain ⟨rfl, rfl⟩ := h
            exact ⟨by rw [i1], i2, i3, fun h => i4 h⟩

/-- Nonvacuity: "é", a newline and "x" in a regular file; the offset is then at "x". -/
example : ∃ f' info', readFile utf8 512 false ⟨sample, 0, true⟩ ⟨[], 1, (0, 0)⟩ [slowly] =
      some ([('é', soft), ('\n', soft)], f', info') ∧ sample.drop f'.pos = [0x78] := by
  have hc : Consistent ⟨sample, 0, true⟩ (⟨[], 1, (0, 0)⟩ : Info (Nat × Nat)) :=
    ⟨by simp, by simp, by simp, [], rfl⟩
  have hne : NoError slowly := by unfold NoError slowly; decide
  obtain ⟨r, hr⟩ := C65_returns (bufsiz := 512) (by omega) hc hne sample_text (by decide)
    (by decide) (rest := [0x78]) rfl (by decide)
  obtain ⟨h1, h2, h3, h4, _, h6⟩ := C65_line_read (bufsiz := 512) (by omega) hc hne sample_text
    (by decide) (by decide) (rest := [0x78]) rfl hr
  refine ⟨(after ⟨sample, 0, true⟩ ⟨[], 1, (0, 0)⟩ r).1, (after ⟨sample, 0, true⟩ ⟨[], 1, (0, 0)⟩ r).2, ?_,
    h6 rfl⟩
  · simp only [readFile, hr]
    rw [if_neg (by rw [h1]; simp), if_neg (by simp), h2]
    rfl

end Yash.Read
