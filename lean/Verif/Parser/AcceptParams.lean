import Verif.Parser.AcceptWords
/-!
# Parameter expansions that are put together from their parts are read
-/
set_option autoImplicit false

namespace Yash.Parser.Grammar

open Syntax Spec Yash.Parser
open Expand (Locale)

variable {L : Locale}

/-! ## Words in a parameter expansion -/

theorem PiecesRT.subst {ps : List Piece} (h : PiecesRT L .brace false ps) (ml : Bool) (i : Nat) (buf : List Char) : ∃ s,
    printWord L ml i (join [] ps) buf = buf ++ s ∧ (s = [] → ps = []) ∧ (s ++ ['}']).head? = (firstChar ps <|> some '}') ∧ s.head? ≠ some '}' ∧
    (∀ rr, lineCont (s ++ '}' :: rr) = s ++ '}' :: rr) ∧
    ∀ b rr, Ev fun m => paramSubst (parser L m) ⟨b, s ++ '}' :: rr⟩ = some (join [] ps, ⟨'}' :: (s.reverse ++ b), rr⟩) := by
  obtain ⟨s, h1, h2, h3, h4, h5⟩ := (h.rt []).parse ml i buf
  have hf : ∀ rr, Follow isClosingBrace (join [] ps) ('}' :: rr) := fun rr => Follow.cons rfl (by decide) (by decide)
  have hps : s = [] → ps = [] := by
    intro hs
    cases ps with
    | nil => rfl
    | cons p ps => exact absurd (h2 hs) (h.ne [] (.inr (by simp)))
  refine ⟨s, h1, hps, ?_, ?_, fun rr => h4 _ (hf rr), ?_⟩
  · cases s with
    | nil => rw [hps rfl]; rfl
    | cons c s =>
      have := h3 (by simp)
      simp at this
      simp [← this]
  · cases s with
    | nil => simp
    | cons c s =>
      have := h3 (by simp)
      simp at this
      have hc := h.head rfl c (by rw [← this]; simp)
      intro he
      simp at he
      subst he
      cases hc
  · intro b rr
    refine (h5 b _ (hf rr)).mono fun m hm => ?_
    simp only [paramSubst]
    rw [show parseWord (parser L m).special isClosingBrace ⟨b, s ++ '}' :: rr⟩ = _ from hm]
    rfl

theorem PiecesRT.replace {ps qs : List Piece} (h : PiecesRT L .pattern false ps) (h' : PiecesRT L .brace false qs) (ml : Bool) (i : Nat)
    (buf : List Char) : ∃ s1 s2,
      printWord L ml i (join [] ps) buf = buf ++ s1 ∧ printWord L ml i (join [] qs) (buf ++ s1 ++ ['/']) = buf ++ s1 ++ ['/'] ++ s2 ∧
      (s1 = [] → ps = []) ∧ (s1 ≠ [] → s1.head? = firstChar ps) ∧ s1.head? ≠ some '/' ∧
      (∀ rr, lineCont (s1 ++ '/' :: rr) = s1 ++ '/' :: rr) ∧
      ∀ b rr, Ev fun m => paramReplace (parser L m) ⟨b, s1 ++ '/' :: (s2 ++ '}' :: rr)⟩ =
        some (join [] ps, join [] qs, ⟨'}' :: (s2.reverse ++ '/' :: (s1.reverse ++ b)), rr⟩) := by
  obtain ⟨s1, h1, h2, h3, h4, h5⟩ := (h.rt []).parse ml i buf
  obtain ⟨s2, g1, g2, g3, g4, g5, g6⟩ := h'.subst ml i (buf ++ s1 ++ ['/'])
  have hf : ∀ rr, Follow isSlashOrClosingBrace (join [] ps) ('/' :: rr) := fun rr => Follow.cons rfl (by decide) (by decide)
  refine ⟨s1, s2, h1, g1, ?_, h3, ?_, fun rr => h4 _ (hf rr), ?_⟩
  · intro hs
    cases ps with
    | nil => rfl
    | cons p ps => exact absurd (h2 hs) (h.ne [] (.inr (by simp)))
  · cases s1 with
    | nil => simp
    | cons c s =>
      have := h3 (by simp)
      simp at this
      have hc := h.head rfl c (by rw [← this]; simp)
      intro he
      simp at he
      subst he
      cases hc
  · intro b rr
    refine (h5 b _ (hf (s2 ++ '}' :: rr))).mono2 (g6 ('/' :: (s1.reverse ++ b)) rr) fun m e1 e2 => ?_
    simp only [paramReplace]
    rw [show parseWord (parser L m).special isSlashOrClosingBrace ⟨b, s1 ++ '/' :: (s2 ++ '}' :: rr)⟩ = _ from e1]
    simp only [Option.bind_eq_bind, Option.bind_some]
    simp only [e2, Option.bind_some]

/-! ## Indices -/

def IndexRT (L : Locale) (start stop : Word) : Prop :=
  ∀ ml i buf, ∃ s, printIdx L ml i start stop buf = buf ++ s ∧ (s ≠ [] → s.head? = some '[') ∧ (start = [] → s = []) ∧
    ∀ b rr, lineCont rr = rr → rr.head? ≠ some '[' → Ev fun m =>
      paramIndex (parser L m) ⟨b, s ++ rr⟩ = some (start, stop, ⟨s.reverse ++ b, rr⟩)

theorem IndexRT.none : IndexRT L [] [] := by
  intro ml i buf
  refine ⟨[], by simp [printIdx], by simp, by simp, ?_⟩
  intro b rr _ hh
  refine .of fun m => ?_
  rw [List.nil_append]
  unfold paramIndex
  split
  · rename_i heq
    cases heq
    exact absurd rfl hh
  · rfl

theorem IndexRT.one {ps : List Piece} (h : PiecesRT L .index false ps) (hne : ps ≠ []) : IndexRT L (join [] ps) [] := by
  intro ml i buf
  have hwe : join [] ps ≠ [] := h.ne [] (.inr hne)
  have hf1 : ∀ rr, Follow isCommaOrClosingBracket (join [] ps) (']' :: rr) := fun rr => Follow.cons rfl (by decide) (by decide)
  obtain ⟨s, h2, h3, h4, h5, h6⟩ := (h.rt []).parse ml i (buf ++ ['['])
  refine ⟨'[' :: s ++ [']'], ?_, by simp, fun h => absurd h hwe, ?_⟩
  · obtain ⟨u, w, hw⟩ : ∃ u w, join [] ps = u :: w := List.exists_cons_of_ne_nil hwe
    rw [hw] at h2 ⊢
    simp only [printIdx]
    rw [h2]
    simp
  · intro b rr hrr _
    refine (h6 ('[' :: b) _ (hf1 rr)).mono fun m e => ?_
    have e : parseWord (parser L m).special isCommaOrClosingBracket ⟨'[' :: b, s ++ ']' :: rr⟩ = _ := e
    simp only [List.cons_append, List.append_assoc, List.nil_append, paramIndex, e, Option.bind_eq_bind, Option.bind_some]
    rw [if_neg (by simpa using hwe)]
    simp [hrr]

theorem IndexRT.two {ps qs : List Piece} (h : PiecesRT L .index false ps) (hne : ps ≠ []) (h' : PiecesRT L .index false qs) (hne' : qs ≠ []) :
    IndexRT L (join [] ps) (join [] qs) := by
  intro ml i buf
  have hwe : join [] ps ≠ [] := h.ne [] (.inr hne)
  have hwe' : join [] qs ≠ [] := h'.ne [] (.inr hne')
  have hf2 : ∀ rr, Follow isCommaOrClosingBracket (join [] ps) (',' :: rr) := fun rr => Follow.cons rfl (by decide) (by decide)
  have hf3 : ∀ rr, Follow isCommaOrClosingBracket (join [] qs) (']' :: rr) := fun rr => Follow.cons rfl (by decide) (by decide)
  obtain ⟨s, hp, h3, h4, h5, h6⟩ := (h.rt []).parse ml i (buf ++ ['['])
  obtain ⟨s', h2', h3', h4', h5', h6'⟩ := (h'.rt []).parse ml i (buf ++ ['['] ++ s ++ [','])
  refine ⟨'[' :: s ++ ',' :: s' ++ [']'], ?_, by simp, fun h => absurd h hwe, ?_⟩
  · obtain ⟨u, w, hw⟩ : ∃ u w, join [] ps = u :: w := List.exists_cons_of_ne_nil hwe
    obtain ⟨u', w', hw'⟩ : ∃ u w, join [] qs = u :: w := List.exists_cons_of_ne_nil hwe'
    rw [hw] at hp ⊢
    rw [hw'] at h2' ⊢
    simp only [printIdx]
    rw [hp, h2']
    simp
  · intro b rr hrr _
    refine (h6 ('[' :: b) _ (hf2 (s' ++ ']' :: rr))).mono2 (h6' (',' :: (s.reverse ++ '[' :: b)) _ (hf3 rr)) fun m e e' => ?_
    have e : parseWord (parser L m).special isCommaOrClosingBracket ⟨'[' :: b, s ++ ',' :: (s' ++ ']' :: rr)⟩ = _ := e
    have e' : parseWord (parser L m).special isCommaOrClosingBracket ⟨',' :: (s.reverse ++ '[' :: b), s' ++ ']' :: rr⟩ = _ := e'
    simp only [List.cons_append, List.append_assoc, List.nil_append, paramIndex, e, Option.bind_eq_bind, Option.bind_some]
    rw [if_neg (by simpa using hwe)]
    simp only [List.reverse_append, List.reverse_cons, List.reverse_nil, List.nil_append, List.append_assoc, List.cons_append] at e' ⊢
    simp only [e', Option.bind_some]
    rw [if_neg (by simpa using hwe')]
    simp [hrr]

/-! ## Modifiers -/

def ModRT (L : Locale) (t : ParamType) (pattern subst : Word) : Prop :=
  (t.number = true → t.colon = false ∧ ∀ ml i buf, printMod L ml i t pattern subst buf = buf ++ ['}']) ∧
  ∀ ml i buf, ∃ c s, printMod L ml i t pattern subst buf = buf ++ c :: s ∧ isModChar c = true ∧
    ((c = '-' ∨ c = '?' ∨ c = '#') → t.colon = false → (∀ rr, lineCont (s ++ rr) = s ++ rr) ∧ s ≠ [] ∧ (s.head? = some '}' → pattern = [] ∧ subst = [] ∧
      (t = { op := .minus } ∨ t = { op := .error } ∨ t = { op := .match, head := true }))) ∧
    ∀ b rr, Ev fun m => paramMod (parser L m) t.number t.colon ⟨b, c :: s ++ rr⟩ = some (t, pattern, subst, ⟨(c :: s).reverse ++ b, rr⟩)

theorem ModRT.plain (number : Bool) : ModRT L { number := number } [] [] := by
  refine ⟨fun _ => ⟨rfl, fun _ _ _ => rfl⟩, fun ml i buf => ⟨'}', [], rfl, rfl, by simp, fun b rr => .of fun m => ?_⟩⟩
  simp [paramMod]

theorem ModRT.value {op : ParamOp} {colon : Bool} {ps : List Piece} (hop : op ∈ [ParamOp.minus, .plus, .assign, .error]) (h : PiecesRT L .brace false ps) :
    ModRT L { op := op, colon := colon } [] (join [] ps) := by
  refine ⟨by simp, fun ml i buf => ?_⟩
  obtain ⟨c, hc, hsub, hmod, hpr⟩ : ∃ c, substChar op = [c] ∧ substOp c = some op ∧ isModChar c = true ∧
      ((c = '-' → op = .minus) ∧ (c = '?' → op = .error) ∧ c ≠ '#' ∧ c ≠ '}') := by
    simp at hop
    rcases hop with rfl | rfl | rfl | rfl
    · exact ⟨'-', by decide⟩
    · exact ⟨'+', by decide⟩
    · exact ⟨'=', by decide⟩
    · exact ⟨'?', by decide⟩
  obtain ⟨s, h1, h2, h3, h4, h5, h6⟩ := h.subst ml i (buf ++ [c])
  refine ⟨c, s ++ ['}'], ?_, hmod, ?_, ?_⟩
  · have : printMod L ml i { op := op, colon := colon } [] (join [] ps) buf = printWord L ml i (join [] ps) (buf ++ substChar op) ++ ['}'] := by
      simp at hop
      rcases hop with rfl | rfl | rfl | rfl <;> rfl
    rw [this, hc, h1]
    simp
  · intro hcs hcol
    refine ⟨fun rr => by simpa using h5 rr, by simp, fun hh => ?_⟩
    have hs : s = [] := by
      cases s with
      | nil => rfl
      | cons x s => simp at hh h4; exact absurd hh h4
    have hps := h2 hs
    subst hps
    simp only at hcol
    subst hcol
    refine ⟨rfl, by simp [join], ?_⟩
    rcases hcs with h | h | h
    · exact .inl (by rw [hpr.1 h])
    · exact .inr (.inl (by rw [hpr.2.1 h]))
    · exact absurd h hpr.2.2.1
  · intro b rr
    refine (h6 (c :: b) rr).mono fun m hm => ?_
    simp only [List.cons_append, paramMod]
    rw [if_neg (by simp [hpr]), if_neg (by simp), hsub]
    simp [hm]

/-- The sign before a prefix or a suffix. -/
def signOf (head : Bool) : Char := if head then '#' else '%'

theorem ModRT.short {head : Bool} {ps : List Piece} (h : PiecesRT L .brace false ps) (hh : firstChar ps ≠ some (signOf head)) :
    ModRT L { op := .match, head := head, tail := !head } (join [] ps) [] := by
  refine ⟨by simp, fun ml i buf => ?_⟩
  obtain ⟨s, h1, h2, h3, h4, h5, h6⟩ := h.subst ml i (buf ++ [signOf head])
  refine ⟨signOf head, s ++ ['}'], ?_, by cases head <;> rfl, ?_, ?_⟩
  · have : printMod L ml i { op := .match, head := head, tail := !head } (join [] ps) [] buf =
        printWord L ml i (join [] ps) (buf ++ [signOf head]) ++ ['}'] := by cases head <;> rfl
    rw [this, h1]
    simp
  · intro hcs _
    refine ⟨fun rr => by simpa using h5 rr, by simp, fun hx => ?_⟩
    have hs : s = [] := by
      cases s with
      | nil => rfl
      | cons x s => simp at hx h4; exact absurd hx h4
    have hps := h2 hs
    subst hps
    cases head with
    | false => exact absurd hcs (by decide)
    | true => exact ⟨by simp [join], rfl, .inr (.inr rfl)⟩
  · intro b rr
    refine (h6 (signOf head :: b) rr).mono fun m e => ?_
    have hx : ¬((lineCont (s ++ '}' :: rr)).head? == some (signOf head)) = true := by
      rw [h5 rr]
      intro hy
      simp only [beq_iff_eq] at hy
      have : (s ++ '}' :: rr).head? = (s ++ ['}']).head? := by cases s <;> rfl
      rw [this, h3] at hy
      cases hp : firstChar ps with
      | none =>
        rw [hp] at hy
        cases head <;> exact absurd hy (by decide)
      | some x =>
        rw [hp] at hy hh
        exact hh hy
    simp only [List.cons_append, paramMod, List.append_assoc, List.nil_append]
    rw [if_neg (by cases head <;> decide), if_neg (by simp), show substOp (signOf head) = none by cases head <;> rfl]
    simp only
    rw [if_pos (by cases head <;> decide), if_neg (by simp), if_neg hx, h5 rr, e]
    cases head <;> simp [signOf]

theorem ModRT.long {head : Bool} {ps : List Piece} (h : PiecesRT L .brace false ps) :
    ModRT L { op := .match, head := head, tail := !head, longest := true } (join [] ps) [] := by
  refine ⟨by simp, fun ml i buf => ?_⟩
  obtain ⟨s, h1, h2, h3, h4, h5, h6⟩ := h.subst ml i (buf ++ [signOf head, signOf head])
  refine ⟨signOf head, signOf head :: s ++ ['}'], ?_, by cases head <;> rfl, ?_, ?_⟩
  · have : printMod L ml i { op := .match, head := head, tail := !head, longest := true } (join [] ps) [] buf =
        printWord L ml i (join [] ps) (buf ++ [signOf head, signOf head]) ++ ['}'] := by cases head <;> rfl
    rw [this, h1]
    simp
  · intro hcs _
    refine ⟨fun rr => lineCont_id (by cases head <;> decide), by simp, fun hx => ?_⟩
    simp at hx
    exact absurd hx (by cases head <;> decide)
  · intro b rr
    refine (h6 (signOf head :: signOf head :: b) rr).mono fun m e => ?_
    simp only [List.cons_append, paramMod, List.append_assoc, List.nil_append]
    rw [if_neg (by cases head <;> decide), if_neg (by simp), show substOp (signOf head) = none by cases head <;> rfl]
    simp only
    rw [if_pos (by cases head <;> decide), if_neg (by simp), lineCont_id (by cases head <;> decide), if_pos (by simp), List.tail_cons, e]
    cases head <;> simp [signOf]

/-- The ways to replace a pattern that differ in the characters after the slash. -/
theorem ModRT.replace {t : ParamType} {ps qs : List Piece} (h : PiecesRT L .pattern false ps) (h' : PiecesRT L .brace false qs)
    (hop : t.op = .subst) (hnum : t.number = false)
    (hread : ∀ m b s1 rest res, s1.head? ≠ some '/' → (s1 = [] → ps = []) → (s1 ≠ [] → s1.head? = firstChar ps) →
      lineCont (s1 ++ '/' :: rest) = s1 ++ '/' :: rest →
      paramReplace (parser L m) ⟨(replaceFlag t).reverse ++ '/' :: b, s1 ++ '/' :: rest⟩ = some res →
      paramMod (parser L m) false t.colon ⟨b, '/' :: replaceFlag t ++ (s1 ++ '/' :: rest)⟩ = some (t, res)) :
    ModRT L t (join [] ps) (join [] qs) := by
  refine ⟨by simp [hnum], fun ml i buf => ?_⟩
  obtain ⟨s1, s2, h1, h2, h3, h4, h5, h6, h7⟩ := h.replace h' ml i (buf ++ '/' :: replaceFlag t)
  refine ⟨'/', replaceFlag t ++ (s1 ++ '/' :: (s2 ++ ['}'])), ?_, rfl, by simp, ?_⟩
  · simp only [printMod, hop]
    rw [h1, h2]
    simp
  · intro b rr
    refine (h7 ((replaceFlag t).reverse ++ '/' :: b) rr).mono fun m e => ?_
    have := hread m b s1 (s2 ++ '}' :: rr) _ h5 h3 h4 (h6 _) e
    rw [hnum]
    simpa using this

theorem ModRT.first {ps qs : List Piece} (h : PiecesRT L .pattern false ps) (hne : ps ≠ []) (hh : firstChar ps ≠ some '#') (hh' : firstChar ps ≠ some '%')
    (h' : PiecesRT L .brace false qs) : ModRT L { op := .subst, longest := true } (join [] ps) (join [] qs) := by
  refine .replace h h' rfl rfl fun m b s1 rest res g1 g2 g3 g4 e => ?_
  cases s1 with
  | nil => exact absurd (g2 rfl) hne
  | cons x s1 =>
    have hx := g3 (by simp)
    simp at hx g1
    rw [← hx] at hh hh'
    simp at hh hh'
    have hflag : replaceFlag { op := .subst, longest := true } = [] := rfl
    rw [hflag] at e ⊢
    simp only [List.cons_append, List.nil_append, List.reverse_nil] at e ⊢ g4
    simp only [paramMod, g4]
    simp [substOp, hh, hh', g1, e]

theorem ModRT.flag {t : ParamType} {f : Char} {ps qs : List Piece} (h : PiecesRT L .pattern false ps) (h' : PiecesRT L .brace false qs)
    (ht : (f = '/' ∧ t = { op := .subst, all := true, longest := true }) ∨ (f = '#' ∧ t = { op := .subst, head := true, longest := true }) ∨
      (f = '%' ∧ t = { op := .subst, tail := true, longest := true })) : ModRT L t (join [] ps) (join [] qs) := by
  refine .replace h h' (by rcases ht with ⟨-, rfl⟩ | ⟨-, rfl⟩ | ⟨-, rfl⟩ <;> rfl) (by rcases ht with ⟨-, rfl⟩ | ⟨-, rfl⟩ | ⟨-, rfl⟩ <;> rfl)
    fun m b s1 rest res g1 g2 g3 g4 e => ?_
  rcases ht with ⟨-, rfl⟩ | ⟨-, rfl⟩ | ⟨-, rfl⟩
  · have hflag : replaceFlag { op := .subst, all := true, longest := true } = ['/'] := rfl
    rw [hflag] at e ⊢
    simp only [List.cons_append, List.nil_append, List.reverse_cons, List.reverse_nil] at e ⊢
    simp only [paramMod]
    rw [lineCont_id (by decide)]
    simp [substOp, e]
  · have hflag : replaceFlag { op := .subst, head := true, longest := true } = ['#'] := rfl
    rw [hflag] at e ⊢
    simp only [List.cons_append, List.nil_append, List.reverse_cons, List.reverse_nil] at e ⊢
    simp only [paramMod]
    rw [lineCont_id (by decide)]
    simp [substOp, e]
  · have hflag : replaceFlag { op := .subst, tail := true, longest := true } = ['%'] := rfl
    rw [hflag] at e ⊢
    simp only [List.cons_append, List.nil_append, List.reverse_cons, List.reverse_nil] at e ⊢
    simp only [paramMod]
    rw [lineCont_id (by decide)]
    simp [substOp, e]

theorem ModRT.whole {ps qs : List Piece} (h : PiecesRT L .pattern false ps) (h' : PiecesRT L .brace false qs) :
    ModRT L { op := .subst, colon := true, head := true, tail := true, longest := true } (join [] ps) (join [] qs) := by
  refine .replace h h' rfl rfl fun m b s1 rest res g1 g2 g3 g4 e => ?_
  have hflag : replaceFlag { op := .subst, colon := true, head := true, tail := true, longest := true } = [] := rfl
  rw [hflag] at e ⊢
  simp only [List.cons_append, List.nil_append, List.reverse_nil] at e ⊢
  simp only [paramMod, g4]
  simp [substOp, e]

/-! ## The parameter -/

/-- What is expanded is read back; `h` is its first character. -/
def BaseRT' (L : Locale) (base : ParamBase) : Prop :=
  ∃ h, BaseRT L base h ∧ ∀ x, x = '-' ∨ x = '?' ∨ x = '#' → h = some x → base = .name [x]

theorem name_chars {n : List Char} (h : Name L [.str n]) : ∃ c s, n = c :: s ∧ ∀ d ∈ n, isNameChar L d = true := by
  obtain ⟨c, s, h1, h2, h3⟩ := h
  cases h1
  exact ⟨c, s, rfl, fun d hd => by simpa [isNameChar] using h3 d hd⟩

theorem BaseRT'.name (hL : LocaleOk L) {n : List Char} (h : Parameter L n) : BaseRT' L (.name n) := by
  have key : ∀ (c : Char) (s : List Char), (∀ d ∈ c :: s, isNameChar L d = true) → BaseRT' L (.name (c :: s)) := by
    intro c s hall
    have hno : ∀ x ∈ "'\"\\$`;&|<>()~#*?[]{},:=!^\n+@%/-. ".toList, c ≠ x := by
      intro x hx hdx
      subst hdx
      have := hall c (by simp)
      rw [isNameChar_alnum hL hx] at this
      cases this
    have hp : paramName L [] (c :: s ++ ['}']) = some (.name (c :: s), ⟨(c :: s).reverse, ['}']⟩) := by
      simp only [List.cons_append, paramName]
      rw [if_neg]
      · have := takeName_text (isNameChar L) (isNameChar_alnum hL (by decide)) (c :: s) ['}'] hall (lineCont_id (by decide))
          (fun e he => by simp at he; subst he; exact isNameChar_alnum hL (by decide))
        simp only [List.cons_append] at this
        rw [this]
        simp
      · have h1 := hno '@' (by decide)
        have h2 := hno '*' (by decide)
        have h3 := hno '#' (by decide)
        have h4 := hno '?' (by decide)
        have h5 := hno '-' (by decide)
        have h6 := hno '$' (by decide)
        have h7 := hno '!' (by decide)
        clear hno
        simp [isSpecialParam, h1, h2, h3, h4, h5, h6, h7]
    have hnt : NT (c :: s ++ ['}']) := by rw [NT, List.getLast?_concat]; decide
    refine ⟨_, (param_name hL hnt (lineCont_id (hno '\\' (by decide))) hp).2.2, ?_⟩
    intro x hx hh
    have hcx : c = x := by clear hno; simpa using hh
    rcases hx with h | h | h
    · exact absurd (hcx.trans h) (hno '-' (by decide))
    · exact absurd (hcx.trans h) (hno '?' (by decide))
    · exact absurd (hcx.trans h) (hno '#' (by decide))
  rcases h with ⟨c, hc, rfl⟩ | ⟨hne, hd⟩ | h
  · have hsp : isSpecialParam c = true := by
      have : ∀ c ∈ "@*#?-$!".toList, isSpecialParam c = true := by decide
      exact this c hc
    have hbs : c ≠ '\\' := by rintro rfl; exact absurd hsp (by decide)
    have hp : paramName L [] ([c] ++ ['}']) = some (.name [c], ⟨[c], ['}']⟩) := by simp [paramName, hsp]
    refine ⟨_, (param_name hL (by simp [NT]) (lineCont_id hbs) hp).2.2, ?_⟩
    intro x _ hh
    simp at hh
    rw [hh]
  · obtain ⟨c, s, rfl⟩ := List.exists_cons_of_ne_nil hne
    refine key c s fun d hdd => ?_
    simp [isNameChar, hL.digit d (hd d hdd).1 (hd d hdd).2]
  · obtain ⟨c, s, rfl, hall⟩ := name_chars h
    exact key c s hall

theorem BaseRT'.nest {u : WordUnit} (h : UnitRT L u) : BaseRT' L (.nest u) :=
  ⟨some '$', BaseRT.nest h _, fun x hx hh => by
    simp at hh
    subst hh
    simp at hx⟩

/-! ## The whole expansion -/

theorem param_rt {t : ParamType} {base : ParamBase} {start stop pattern subst : Word} (hb : BaseRT' L base) (hi : IndexRT L start stop)
    (hm : ModRT L t pattern subst) (hamb : ¬Ambiguous t base start pattern subst) : UnitRT L (.param (.mk t base start stop pattern subst)) := by
  intro ml i buf
  obtain ⟨h, hb, hname⟩ := hb
  obtain ⟨hmn, hm⟩ := hm
  generalize hN : t.number = number at *
  generalize hC : t.colon = colon at *
  obtain ⟨cb, tb, pb1, pb2, pb3, pb4, pb5⟩ := hb ml i (buf ++ "${".toList ++ (if number then ['#'] else []))
  obtain ⟨ti, pi1, pi2, pi3, pi4⟩ := hi ml i (buf ++ "${".toList ++ (if number then ['#'] else []) ++ cb :: tb)
  obtain ⟨cm, tm, pm1, pm3, pm4, pm6⟩ := hm ml i
    (buf ++ "${".toList ++ (if number then ['#'] else []) ++ cb :: tb ++ ti ++ (if colon then [':'] else []))
  have htm : isTailChar cm = true := by simp [isTailChar, pm3]
  have hcm : cm ≠ ':' ∧ cm ≠ '[' := by
    constructor <;> (rintro rfl; exact absurd pm3 (by decide))
  have hr2 : ∀ rr, ∃ d x, (if colon then [':'] else []) ++ (cm :: tm ++ rr) = d :: x ∧ isTailChar d = true ∧ d ≠ '[' := by
    intro rr
    cases colon with
    | true => exact ⟨':', _, rfl, by decide, by decide⟩
    | false => exact ⟨cm, _, rfl, htm, hcm.2⟩
  have hr1 : ∀ rr, ∃ d x, ti ++ ((if colon then [':'] else []) ++ (cm :: tm ++ rr)) = d :: x ∧ isTailChar d = true := by
    intro rr
    cases ti with
    | nil =>
      obtain ⟨d, x, h1, h2, _⟩ := hr2 rr
      exact ⟨d, x, h1, h2⟩
    | cons c ti =>
      have := pi2 (by simp)
      simp at this
      subst this
      exact ⟨'[', _, rfl, by decide⟩
  refine ⟨'{', (if number then ['#'] else []) ++ (cb :: tb ++ (ti ++ ((if colon then [':'] else []) ++ cm :: tm))), ?_, .inl rfl, ?_⟩
  · simp only [printUnit]
    rw [printParam_eq, hN, hC, pb1, pi1, pm1]
    simp
  · intro b rr indq
    refine Ev.succ ?_
    obtain ⟨d1, x1, e1, f1⟩ := hr1 rr
    obtain ⟨d2, x2, e2, f2, g2⟩ := hr2 rr
    have q1 := pb5 ((if number then ['#'] else []).reverse ++ '{' :: '$' :: b) (d1 :: x1) (lineCont_id (isTailChar_bs f1)) (by simpa using f1)
    have q2 := pi4 ((cb :: tb).reverse ++ ((if number then ['#'] else []).reverse ++ '{' :: '$' :: b)) (d2 :: x2)
      (lineCont_id (isTailChar_bs f2)) (by simpa using g2)
    have q3 := pm6 ((if colon then [':'] else []).reverse ++ (ti.reverse ++ ((cb :: tb).reverse ++
      ((if number then ['#'] else []).reverse ++ '{' :: '$' :: b)))) rr
    refine q1.mono3 q2 q3 fun m a1 a2 a3 => ?_
    rw [special_eq]
    simp only [List.cons_append, special]
    rw [lineCont_id (by decide)]
    simp only [brace, Option.bind_eq_bind]
    have hnm : numberMark ('{' :: '$' :: b) ((if number then ['#'] else []) ++
        (cb :: (tb ++ (ti ++ ((if colon then [':'] else []) ++ cm :: tm)))) ++ rr) =
        (number, ⟨(if number then ['#'] else []).reverse ++ '{' :: '$' :: b, cb :: tb ++ (d1 :: x1)⟩) := by
      have htext : (cb :: (tb ++ (ti ++ ((if colon then [':'] else []) ++ cm :: tm)))) ++ rr = cb :: tb ++ (d1 :: x1) := by
        rw [← e1]
        simp
      rw [List.append_assoc, htext]
      cases number with
      | false =>
        rw [show (if false = true then ['#'] else []) = ([] : List Char) from rfl, List.nil_append]
        by_cases hcb : cb = '#'
        · subst hcb
          obtain ⟨hh, htb⟩ := pb3 (.inr (.inr rfl))
          subst htb
          have hbase := hname '#' (by simp) hh
          have hstart : start = [] := Classical.byContradiction fun hne => hamb (.inl ⟨hbase, hne⟩)
          have hti := pi3 hstart
          subst hti
          rw [List.cons_append, List.nil_append, numberMark_sharp _ (lineCont_id (isTailChar_bs f1))]
          cases colon with
          | true =>
            simp at e1
            rw [← e1.1]
            rw [if_pos (by decide)]
            rfl
          | false =>
            simp at e1
            obtain ⟨rfl, rfl⟩ := e1
            by_cases hset : cm = '-' ∨ cm = '?' ∨ cm = '#'
            · have h9 : cm ∉ "}+=:/%".toList := by rcases hset with rfl | rfl | rfl <;> decide
              obtain ⟨k1, k2, k3⟩ := pm4 hset rfl
              rw [if_neg (by simp at h9 ⊢; simpa [and_assoc] using h9), if_pos (by simpa [or_assoc] using hset), k1, if_neg]
              · rfl
              · intro hx
                cases tm with
                | nil => exact absurd rfl k2
                | cons y tm =>
                  simp at hx
                  subst hx
                  obtain ⟨j1, j2, j3⟩ := k3 rfl
                  exact hamb (.inr (.inr ⟨hbase, j1, j2, j3⟩))
            · rw [if_pos]
              · rfl
              · simp only [not_or] at hset
                simpa [isModChar, hset, or_assoc, hcm.1, or_comm, or_left_comm] using pm3
        · rw [List.cons_append, numberMark_other (lineCont_id pb2) (by simpa using hcb)]
          rfl
      | true =>
        rw [show (if true = true then ['#'] else []) = ['#'] from rfl]
        simp only [List.cons_append, List.nil_append]
        rw [numberMark_sharp _ (lineCont_id pb2), if_neg (by simp at pb4 ⊢; simpa [and_assoc] using pb4)]
        obtain ⟨hcol, hpr⟩ := hmn rfl
        subst hcol
        by_cases hset : cb = '-' ∨ cb = '?' ∨ cb = '#'
        · obtain ⟨hh, rfl⟩ := pb3 hset
          have hbase := hname cb hset hh
          have hstart : start = [] := Classical.byContradiction fun hne => hamb (by
            rcases hset with rfl | rfl | rfl
            · exact .inr (.inl ⟨hN, .inl hbase, hne⟩)
            · exact .inr (.inl ⟨hN, .inr hbase, hne⟩)
            · exact .inl ⟨hbase, hne⟩)
          have hti := pi3 hstart
          subst hti
          have hcmm : cm = '}' := by
            have := pm1.symm.trans (hpr ml i _)
            simp at this
            exact this.1
          subst hcmm
          simp at e1
          obtain ⟨rfl, rfl⟩ := e1
          rw [if_pos (by simpa [or_assoc] using hset), List.nil_append, lineCont_id (by decide), if_pos (by simp)]
          rfl
        · rw [if_neg (by simpa [or_assoc] using hset)]
          rfl
    rw [hnm]
    simp only [a1, Option.bind_some]
    have htext2 : d1 :: x1 = ti ++ (d2 :: x2) := by rw [← e1, ← e2]
    rw [htext2, a2]
    simp only [Option.bind_some]
    have hpc : paramColon ⟨ti.reverse ++ ((cb :: tb).reverse ++ ((if number then ['#'] else []).reverse ++ '{' :: '$' :: b)), d2 :: x2⟩ =
        (colon, ⟨(if colon then [':'] else []).reverse ++ (ti.reverse ++ ((cb :: tb).reverse ++
          ((if number then ['#'] else []).reverse ++ '{' :: '$' :: b))), cm :: tm ++ rr⟩) := by
      rw [← e2]
      cases colon with
      | true => simp [paramColon, lineCont_id (isTailChar_bs htm)]
      | false =>
        rw [show (if false = true then [':'] else []) = ([] : List Char) from rfl, List.nil_append]
        rw [paramColon_other (by simp [hcm.1])]
        rfl
    rw [hpc, a3]
    simp

end Yash.Parser.Grammar
