import Verif.Expand.Four
import Verif.Expand.BraceProps
import Verif.Expand.FieldSplitProps
/-!
# Words that brace expansion, field splitting and pathname expansion leave alone
-/
set_option autoImplicit false

namespace Yash.Expand

/-- A character that has no special meaning after the four expansions. -/
def Inert (c : CChar) : Prop :=
  c.2.quotation = true ∨ c.2.quoted = true ∨ c.2.origin = .hard ∨
    (c.2.origin = .literal ∧ c.1 ≠ '{' ∧ c.1 ≠ '*' ∧ c.1 ≠ '?' ∧ c.1 ≠ '[' ∧ c.1 ≠ '\\')

theorem Inert.not_brace {c : CChar} (h : Inert c) : c ≠ Spec.lit '{' := by
  rintro rfl
  simp [Inert, Spec.lit, CC.lit] at h

theorem Inert.not_splittable {c : CChar} (h : Inert c) (ifs : List Char) : ¬ Spec.splittable ifs c := by
  obtain ⟨c, o, q, m⟩ := c
  simp only [Inert, Spec.splittable] at h ⊢
  cases o <;> cases q <;> cases m <;> simp_all

/-- A pattern in which every special character is escaped. -/
inductive Escaped : List Char → Prop
  | nil : Escaped []
  | esc (c : Char) (s : List Char) : Escaped s → Escaped ('\\' :: c :: s)
  | chr (c : Char) (s : List Char) : c ≠ '*' → c ≠ '?' → c ≠ '[' → c ≠ '\\' → Escaped s → Escaped (c :: s)

theorem escaped_quoteRemoval : ∀ (w : CWord), (∀ c ∈ w, Inert c) → Escaped (quoteRemoval .quotedHard w)
  | [], _ => .nil
  | (c, cc) :: w, h => by
    have ih := escaped_quoteRemoval w fun c hc => h c (List.mem_cons_of_mem _ hc)
    have hc := h _ List.mem_cons_self
    simp only [quoteRemoval]
    split
    · exact ih
    · rename_i hq
      split
      · exact .esc _ _ ih
      · rename_i he
        simp only [shouldEscape, Inert] at he hc
        cases ho : cc.origin <;> simp_all
        exact .chr _ _ hc.2.1 hc.2.2.1 hc.2.2.2.1 hc.2.2.2.2 ih

/-- A part of an escaped pattern that may end with a backslash. -/
inductive EscapedPart : List Char → Prop
  | nil : EscapedPart []
  | bs : EscapedPart ['\\']
  | esc (c : Char) (s : List Char) : EscapedPart s → EscapedPart ('\\' :: c :: s)
  | chr (c : Char) (s : List Char) : c ≠ '*' → c ≠ '?' → c ≠ '[' → c ≠ '\\' → EscapedPart s → EscapedPart (c :: s)

theorem EscapedPart.not_pattern {s : List Char} (h : EscapedPart s) : Fnmatch.isMatchingPattern s = false := by
  induction h with
  | nil => rfl
  | bs => rfl
  | esc c s _ ih => simpa only [Fnmatch.isMatchingPattern] using ih
  | chr c s h1 h2 h3 h4 _ ih =>
    rw [Fnmatch.isMatchingPattern]
    · exact ih
    · rintro rfl; contradiction
    · intro _ _ h _; exact h4 h
    · exact h1
    · exact h2
    · exact h3

/-- `b` is an escaped pattern. -/
theorem EscapedPart.append {b : List Char} (hb : Escaped b) {s : List Char} (h : EscapedPart s) : EscapedPart (b ++ s) := by
  induction hb with
  | nil => exact h
  | esc c s _ ih => exact .esc _ _ ih
  | chr c s h1 h2 h3 h4 _ ih => exact .chr _ _ h1 h2 h3 h4 ih

theorem Escaped.append {b : List Char} (hb : Escaped b) {s : List Char} (h : Escaped s) : Escaped (b ++ s) := by
  induction hb with
  | nil => exact h
  | esc c s _ ih => exact .esc _ _ ih
  | chr c s h1 h2 h3 h4 _ ih => exact .chr _ _ h1 h2 h3 h4 ih

theorem Escaped.not_pathname {s : List Char} (h : Escaped s) :
    ∀ b, Escaped b → Fnmatch.isPathnameMatchingPattern b s = false := by
  induction h with
  | nil =>
    intro b hb
    have := EscapedPart.append hb .nil
    rw [List.append_nil] at this
    simpa [Fnmatch.isPathnameMatchingPattern] using this.not_pattern
  | esc c s _ ih =>
    intro b hb
    rw [Fnmatch.isPathnameMatchingPattern, if_neg (by decide), Fnmatch.isPathnameMatchingPattern]
    split
    · rw [ih [] .nil, (EscapedPart.append hb .bs).not_pattern]; rfl
    · rw [List.append_assoc]
      exact ih _ (Escaped.append hb (.esc _ _ .nil))
  | chr c s h1 h2 h3 h4 _ ih =>
    intro b hb
    rw [Fnmatch.isPathnameMatchingPattern]
    split
    · have := EscapedPart.append hb .nil
      rw [List.append_nil] at this
      rw [ih [] .nil, this.not_pattern]; rfl
    · exact ih _ (Escaped.append hb (.chr _ _ h1 h2 h3 h4 .nil))

/-- The last three steps of `expand_multiple` leave inert words alone. -/
theorem globField_inert {σ : Type} (E : Env σ) (s : σ) (f : CWord) (h : ∀ c ∈ f, Inert c) :
    globField E s f = [quoteRemoval .none f] := by
  simp only [globField]
  rw [(escaped_quoteRemoval f h).not_pathname [] .nil]
  simp

theorem expandBraceEach_inert {L : Locale} {R : LongRange} (hL : L.Ok) (hR : R.Ok) (ws : List CWord)
    (h : ∀ w ∈ ws, ∀ c ∈ w, Inert c) : expandBraceEach L R ws = some ws := by
  rw [expandBraceEach]
  induction ws with
  | nil => rfl
  | cons w ws ih =>
    rw [collect, C16_quoted_braces_unchanged hL hR w fun c hc => (h w List.mem_cons_self c hc).not_brace]
    rw [ih fun w hw => h w (List.mem_cons_of_mem _ hw)]
    rfl

theorem fieldsplit_inert (L : Locale) (el : Bool) (ifs : Option (List Char)) (ws : List CWord)
    (h : ∀ w ∈ ws, w ≠ [] ∧ ∀ c ∈ w, Inert c) : fieldsplit L el ifs ws = ws := by
  rw [fieldsplit]
  induction ws with
  | nil => rfl
  | cons w ws ih =>
    rw [List.flatMap_cons, ih fun w hw => h w (List.mem_cons_of_mem _ hw),
      C15_unsplittable_word_is_one_field _ _ _ _ (h w List.mem_cons_self).1
        fun c hc => ((h w List.mem_cons_self).2 c hc).not_splittable _]
    rfl

theorem expandMultiple_inert {σ : Type} (E : Env σ) (hL : E.locale.Ok) (hR : E.long.Ok) (w : Syntax.Word)
    (s s' : σ) (ws : List CWord) (hw : expandFour E .single .word .lit w s = .ok s' ws)
    (h : ∀ w ∈ ws, w ≠ [] ∧ ∀ c ∈ w, Inert c) :
    expandMultiple E w s = .ok s' (ws.map (quoteRemoval .none)) := by
  simp only [expandMultiple, bind, M.bind, hw]
  have hb : (if E.braceexpand then expandBraceEach E.locale E.long ws else some ws) = some ws := by
    split
    · exact expandBraceEach_inert hL hR ws fun w hw => (h w hw).2
    · rfl
  rw [hb]
  simp only [M.check, M.pure, pure, M.get]
  congr 1
  rw [fieldsplit_inert _ _ _ _ h]
  have : ∀ ws : List CWord, (∀ w ∈ ws, ∀ c ∈ w, Inert c) →
      ws.flatMap (globField E s') = ws.map (quoteRemoval .none) := by
    intro ws
    induction ws with
    | nil => intro _; rfl
    | cons w ws ih =>
      intro h
      rw [List.flatMap_cons, List.map_cons, ih fun w hw => h w (List.mem_cons_of_mem _ hw),
        globField_inert E s' w (h w List.mem_cons_self)]
      rfl
  exact this ws fun w hw => (h w hw).2

end Yash.Expand
