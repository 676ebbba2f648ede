import Verif.Complete.Spec
/-!
# A word that was typed expands to what was typed
-/
set_option autoImplicit false

namespace Yash.Expand

open Syntax (Src Special parseWord lineCont stringUnit isTokenDelimiter nextToken tokenAt skipBlanks skipComment Token WordUnit)
open Spec (Seg Writes DPart)

variable {σ : Type} {E : Env σ}

theorem content_plain (val : List Char → List (List Char)) : ∀ (ps : List DPart), (∀ p ∈ ps, PlainPart p) →
    Spec.content val ps = [(ps.map partPlain).flatten]
  | [], _ => by simp [Spec.content]
  | p :: ps, h => by
    have ih := content_plain val ps fun q hq => h q (List.mem_cons_of_mem _ hq)
    have hp := h p List.mem_cons_self
    simp only [Spec.content, List.foldr_cons] at ih ⊢
    rw [ih]
    cases p <;> simp_all [PlainPart, DPart.fields, Spec.glue, partPlain]

theorem fields_plain (val : List Char → List (List Char)) {L : Locale} {g : Seg} (h : PlainSeg L g) :
    g.fields val = [segPlain g] := by
  cases g with
  | dq ps =>
    simp only [Seg.fields, segPlain]
    have hv : ps.flatMap DPart.vars = [] := by
      rw [List.flatMap_eq_nil_iff]
      intro p hp
      have := h p hp
      cases p <;> simp_all [PlainPart, DPart.vars]
    rw [if_neg (by simp [hv]), content_plain val ps h]
  | _ => simp [Seg.fields, segPlain]

theorem wordFields_plain (val : List Char → List (List Char)) {L : Locale} (gs : List Seg) (hne : gs ≠ [])
    (h : ∀ g ∈ gs, PlainSeg L g) : Spec.wordFields val gs = [(gs.map segPlain).flatten] := by
  induction gs with
  | nil => exact absurd rfl hne
  | cons g gs ih =>
    have hg := fields_plain val (h g List.mem_cons_self)
    simp only [Spec.wordFields, List.foldr_cons] at ih ⊢
    cases gs with
    | nil => simp [hg, Spec.glue]
    | cons g' gs =>
      rw [ih (by simp) fun x hx => h x (List.mem_cons_of_mem _ hx), hg]
      simp [Spec.glue]

/-- A word of segments without expansions expands to the text the segments stand for. -/
theorem segs_expand (hL : E.locale.Ok) (hR : E.long.Ok) (gs : List Seg) (hne : gs ≠ [])
    (hplain : ∀ g ∈ gs, PlainSeg E.locale g) (hok : ∀ g ∈ gs, g.Ok)
    (hhead : ∀ c r, gs = .chr c :: r → c ≠ '~' ∧ c ≠ '#') (st : σ) :
    expandMultiple E [.str (gs.map segText).flatten] st = .ok st [(gs.map segPlain).flatten] := by
  have hw := writes_text E.locale gs hplain
  have hv : gs.flatMap Seg.vars = [] := by
    rw [List.flatMap_eq_nil_iff]
    intro g hg
    have := hplain g hg
    cases g with
    | dq ps =>
      simp only [Seg.vars]
      rw [List.flatMap_eq_nil_iff]
      intro p hp
      have := this p hp
      cases p <;> simp_all [PlainPart, DPart.vars]
    | _ => rfl
  rw [C43_quoted_word E hL hR st gs hok (fun r hr => (hhead '~' r hr).1 rfl) (by simp [hv]) (by simp [hv]) _ hw,
    wordFields_plain _ gs hne hplain]

/-- A word of segments without expansions is one word that expands to the text the segments stand for. -/
theorem segs_text (hL : E.locale.Ok) (hR : E.long.Ok) (gs : List Seg) (hne : gs ≠ [])
    (hplain : ∀ g ∈ gs, PlainSeg E.locale g) (hok : ∀ g ∈ gs, g.Ok)
    (hhead : ∀ c r, gs = .chr c :: r → c ≠ '~' ∧ c ≠ '#') :
    WordText E (gs.map segText).flatten (gs.map segPlain).flatten := by
  intro special b rest hrest
  have hp := parse_segs hL special rest hrest gs hplain ((gs.map segText).flatten ++ rest).length.succ [] b
    (by simp only [List.length_append]; omega)
  have hexp := segs_expand hL hR gs hne hplain hok hhead
  obtain ⟨c, r, hc, hb, hl, hsp⟩ : ∃ c r, (gs.map segText).flatten = c :: r ∧ E.locale.blank c = false ∧
      lineCont (c :: (r ++ rest)) = c :: (r ++ rest) ∧ c ∉ ['\n', ';', '&', '|', '<', '>', '(', ')', '#'] := by
    cases gs with
    | nil => exact absurd rfl hne
    | cons g gs =>
      have hg := hplain g List.mem_cons_self
      cases g with
      | chr c =>
        have h1 := hg.1
        simp only [List.mem_cons, List.not_mem_nil, or_false, not_or] at h1
        have h2 := hhead c gs rfl
        refine ⟨c, (gs.map segText).flatten, by simp [segText], hg.2, lineCont_cons c _ (by simp [h1]), by simp [h1, h2]⟩
      | sq s =>
        refine ⟨'\'', s ++ '\'' :: (gs.map segText).flatten, by simp [segText], hL.punct_blank _ (by decide),
          lineCont_cons _ _ (by decide), by decide⟩
      | bs c =>
        refine ⟨'\\', c :: (gs.map segText).flatten, by simp [segText], hL.punct_blank _ (by decide), ?_, by decide⟩
        exact lineCont_bs c _ hg
      | dq ps =>
        refine ⟨'"', (ps.map partText).flatten ++ '"' :: (gs.map segText).flatten, by simp [segText],
          hL.punct_blank _ (by decide), lineCont_cons _ _ (by decide), by decide⟩
  rw [hc] at hp hexp ⊢
  simp only [List.mem_cons, List.not_mem_nil, or_false, not_or] at hsp
  have hsu : stringUnit ([] ++ (c :: r)) = [.str (c :: r)] := by simp [stringUnit]
  rw [hsu] at hp
  refine ⟨{
      type :=
        if (rest.head? == some '<' || rest.head? == some '>') && Syntax.isDigitsOnly [.str (c :: r)] then .ioNumber
        else Syntax.reservedWordOf [.str (c :: r)]
      word := [.str (c :: r)]
      text := c :: r
      src := ⟨(c :: r).reverse ++ b, rest⟩ }, ?_, rfl, by simp, hexp⟩
  simp only [nextToken, List.cons_append]
  rw [skipBlanks_word E.locale b c _ hb hl]
  have hcom : skipComment ⟨b, c :: (r ++ rest)⟩ = ⟨b, c :: (r ++ rest)⟩ := by
    unfold skipComment
    split
    · rename_i heq
      simp only [List.cons.injEq] at heq
      exact absurd heq.1 (by simp [hsp])
    · rfl
  rw [hcom]
  simp only [tokenAt]
  rw [if_neg (by simp [hsp]), if_neg (by simp [hsp]), if_neg (by simp [hsp]), if_neg (by simp [hsp]),
    if_neg (by simp [hsp]), if_neg (by simp [hsp]), if_neg (by simp [hsp]), if_neg (by simp [hsp])]
  simp only [parseWord]
  have hk : (((c :: r).reverse ++ b).take (((c :: r).reverse ++ b).length - b.length)).reverse = c :: r := by
    rw [show ((c :: r).reverse ++ b).length - b.length = (c :: r).reverse.length by simp only [List.length_append]; omega,
      List.take_left, List.reverse_reverse]
  rw [← List.cons_append, hp]
  dsimp only
  rw [hk]

end Yash.Expand

namespace Yash.Complete

open Expand (Locale Env WordText PlainSeg PlainPart segText segPlain partText partPlain)
open Expand.Spec (Seg DPart)
open Spec (Open Typed)

/-- Segments of a word. -/
def Good (L : Locale) (gs : List Seg) : Prop :=
  (∀ g ∈ gs, PlainSeg L g ∧ g.Ok) ∧ ∀ c r, gs = .chr c :: r → c ≠ '~' ∧ c ≠ '#'

def textOf (gs : List Seg) : List Char := (gs.map segText).flatten
def valueOf (gs : List Seg) : List Char := (gs.map segPlain).flatten
def partsText (ps : List DPart) : List Char := (ps.map partText).flatten
def partsValue (ps : List DPart) : List Char := (ps.map partPlain).flatten

theorem Good.snoc {L : Locale} {gs : List Seg} (h : Good L gs) (g : Seg) (h1 : PlainSeg L g) (h2 : g.Ok)
    (h3 : gs = [] → ∀ c, g = .chr c → c ≠ '~' ∧ c ≠ '#') : Good L (gs ++ [g]) := by
  constructor
  · intro x hx
    rcases List.mem_append.1 hx with hx | hx
    · exact h.1 x hx
    · rw [List.mem_singleton] at hx; subst hx; exact ⟨h1, h2⟩
  · intro c r hr
    cases gs with
    | nil => simp at hr; exact h3 rfl c hr.1
    | cons g' gs => simp at hr; exact h.2 c gs (by rw [hr.1])

theorem textOf_snoc (gs : List Seg) (g : Seg) : textOf (gs ++ [g]) = textOf gs ++ segText g := by simp [textOf]
theorem valueOf_snoc (gs : List Seg) (g : Seg) : valueOf (gs ++ [g]) = valueOf gs ++ segPlain g := by simp [valueOf]
theorem partsText_snoc (ps : List DPart) (p : DPart) : partsText (ps ++ [p]) = partsText ps ++ partText p := by simp [partsText]
theorem partsValue_snoc (ps : List DPart) (p : DPart) : partsValue (ps ++ [p]) = partsValue ps ++ partPlain p := by
  simp [partsValue]

/-- The segments of a word that has been typed. -/
def Shape (L : Locale) (t v : List Char) : Open → Prop
  | .nothing => ∃ gs, Good L gs ∧ t = textOf gs ∧ v = valueOf gs
  | .backslash => ∃ gs, Good L gs ∧ t = textOf gs ++ ['\\'] ∧ v = valueOf gs
  | .single => ∃ gs s, Good L gs ∧ '\'' ∉ s ∧ t = textOf gs ++ '\'' :: s ∧ v = valueOf gs ++ s
  | .double => ∃ gs ps, Good L gs ∧ (∀ p ∈ ps, PlainPart p) ∧ t = textOf gs ++ '"' :: partsText ps ∧
      v = valueOf gs ++ partsValue ps
  | .doubleBackslash => ∃ gs ps, Good L gs ∧ (∀ p ∈ ps, PlainPart p) ∧ t = textOf gs ++ '"' :: partsText ps ++ ['\\'] ∧
      v = valueOf gs ++ partsValue ps

theorem PlainPart.ok {p : DPart} (h : PlainPart p) : p.Ok := by
  cases p <;> simp_all [PlainPart, DPart.Ok]

theorem typed_shape {L : Locale} {o : Open} {t v : List Char} (h : Typed L o t v) : Shape L t v o := by
  induction h with
  | start => exact ⟨[], ⟨by simp, by simp⟩, rfl, rfl⟩
  | char t v c _ hc hb h0 ih =>
    obtain ⟨gs, hg, rfl, rfl⟩ := ih
    simp at hc
    refine ⟨gs ++ [.chr c], hg.snoc (.chr c) ⟨by simp [hc], hb⟩ (by simp [Seg.Ok, hc]) ?_, by simp [textOf_snoc, segText],
      by simp [valueOf_snoc, segPlain]⟩
    intro hn d hd
    cases hd
    exact h0 (by simp [hn, textOf])
  | backslash t v _ ih => obtain ⟨gs, hg, rfl, rfl⟩ := ih; exact ⟨gs, hg, rfl, rfl⟩
  | escaped t v c _ hc ih =>
    obtain ⟨gs, hg, rfl, rfl⟩ := ih
    exact ⟨gs ++ [.bs c], hg.snoc (.bs c) hc trivial (by simp), by simp [textOf_snoc, segText], by simp [valueOf_snoc, segPlain]⟩
  | openSingle t v _ ih => obtain ⟨gs, hg, rfl, rfl⟩ := ih; exact ⟨gs, [], hg, by simp, rfl, by simp⟩
  | inSingle t v c _ hc ih =>
    obtain ⟨gs, s, hg, hs, rfl, rfl⟩ := ih
    exact ⟨gs, s ++ [c], hg, by simp [hs, Ne.symm hc], by simp, by simp⟩
  | closeSingle t v _ ih =>
    obtain ⟨gs, s, hg, hs, rfl, rfl⟩ := ih
    exact ⟨gs ++ [.sq s], hg.snoc (.sq s) hs hs (by simp), by simp [textOf_snoc, segText], by simp [valueOf_snoc, segPlain]⟩
  | openDouble t v _ ih =>
    obtain ⟨gs, hg, rfl, rfl⟩ := ih
    exact ⟨gs, [], hg, by simp, by simp [partsText], by simp [partsValue]⟩
  | inDouble t v c _ hc ih =>
    obtain ⟨gs, ps, hg, hs, rfl, rfl⟩ := ih
    simp at hc
    refine ⟨gs, ps ++ [.chr c], hg, ?_, by simp [partsText_snoc, partText], by simp [partsValue_snoc, partPlain]⟩
    intro p hp
    rcases List.mem_append.1 hp with hp | hp
    · exact hs p hp
    · rw [List.mem_singleton] at hp; subst hp; simp [PlainPart, hc]
  | closeDouble t v _ ih =>
    obtain ⟨gs, ps, hg, hs, rfl, rfl⟩ := ih
    exact ⟨gs ++ [.dq ps], hg.snoc (.dq ps) hs (fun p hp => PlainPart.ok (hs p hp)) (by simp),
      by simp [textOf_snoc, segText, partsText], by simp [valueOf_snoc, segPlain, partsValue]⟩
  | doubleBackslash t v _ ih => obtain ⟨gs, ps, hg, hs, rfl, rfl⟩ := ih; exact ⟨gs, ps, hg, hs, rfl, rfl⟩
  | escapedDouble t v c _ hc ih =>
    obtain ⟨gs, ps, hg, hs, rfl, rfl⟩ := ih
    refine ⟨gs, ps ++ [.esc c], hg, ?_, by simp [partsText_snoc, partText], by simp [partsValue_snoc, partPlain]⟩
    intro p hp
    rcases List.mem_append.1 hp with hp | hp
    · exact hs p hp
    · rw [List.mem_singleton] at hp; subst hp; simpa [PlainPart, Expand.Spec.dqSpecial] using hc
  | keptDouble t v c _ hc hn ih =>
    obtain ⟨gs, ps, hg, hs, rfl, rfl⟩ := ih
    refine ⟨gs, ps ++ [.keep c], hg, ?_, by simp [partsText_snoc, partText], by simp [partsValue_snoc, partPlain]⟩
    intro p hp
    rcases List.mem_append.1 hp with hp | hp
    · exact hs p hp
    · rw [List.mem_singleton] at hp; subst hp; simp at hc; simp [PlainPart, Expand.Spec.dqSpecial, hc, hn]

variable {σ : Type} {E : Env σ}

/-- A word that has been typed, with all quotes closed, is one word for the shell, and it expands to the string that was typed. -/
theorem typed_word (hL : E.locale.Ok) (hR : E.long.Ok) {t v : List Char} (h : Typed E.locale .nothing t v) (hne : t ≠ []) :
    WordText E t v := by
  obtain ⟨gs, hg, rfl, rfl⟩ := typed_shape h
  refine Expand.segs_text hL hR gs ?_ (fun g hg' => (hg.1 g hg').1) (fun g hg' => (hg.1 g hg').2) hg.2
  rintro rfl
  exact hne rfl

/-- What the word expands to. -/
theorem typed_expand (hL : E.locale.Ok) (hR : E.long.Ok) {t v : List Char} (h : Typed E.locale .nothing t v) (hne : t ≠ []) (st : σ) :
    Expand.expandMultiple E [.str t] st = .ok st [v] := by
  obtain ⟨gs, hg, rfl, rfl⟩ := typed_shape h
  refine Expand.segs_expand hL hR gs ?_ (fun g hg' => (hg.1 g hg').1) (fun g hg' => (hg.1 g hg').2) hg.2 st
  rintro rfl
  exact hne rfl

/-! ## Going on typing -/

theorem Typed.dropBackslash {L : Locale} {o : Open} {t v : List Char} (h : Typed L o t v) :
    (o = .backslash → ∃ t', t = t' ++ ['\\'] ∧ Typed L .nothing t' v) ∧
    (o = .doubleBackslash → ∃ t', t = t' ++ ['\\'] ∧ Typed L .double t' v) := by
  cases h <;> simp_all

end Yash.Complete
