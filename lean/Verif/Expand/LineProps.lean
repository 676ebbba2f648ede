import Verif.Expand.QuoteWord
/-!
# Lines of words that are read back

Built-ins print commands that can be read again; their lines are made of quoted strings and of words of plain characters.
-/
set_option autoImplicit false

namespace Yash.Expand

open Syntax (Src Special parseWord lineCont stringUnit isTokenDelimiter nextToken tokenAt skipBlanks skipComment Token WordUnit)
open Spec (Seg Writes)

/-- The rest of the line consists of words that expand to these strings, whatever the state of the shell is; then there is
a newline and `rest`. -/
inductive ReadsLine {σ : Type} (E : Env σ) (special : Special) : Src → List (List Char) → List Char → Prop
  | nil (src : Src) (t : Token) : nextToken E.locale special src = some t → t.type = .newline →
      ReadsLine E special src [] t.src.rest
  | cons (src : Src) (t : Token) (s : List Char) (ss : List (List Char)) (rest : List Char) :
      nextToken E.locale special src = some t → t.word ≠ [] → (∀ st, expandMultiple E t.word st = .ok st [s]) →
      ReadsLine E special t.src ss rest → ReadsLine E special src (s :: ss) rest

/-- The text is that of a word that expands to the string, wherever it stands. -/
def WordText {σ : Type} (E : Env σ) (text s : List Char) : Prop :=
  ∀ (special : Special) (b rest : List Char), EndsWord E.locale rest →
    ∃ t, nextToken E.locale special ⟨b, text ++ rest⟩ = some t ∧ t.src = ⟨text.reverse ++ b, rest⟩ ∧ t.word ≠ [] ∧
      ∀ st, expandMultiple E t.word st = .ok st [s]

variable {σ : Type} {E : Env σ}

/-- A quoted string. -/
theorem quoted_text (hL : E.locale.Ok) (hR : E.long.Ok) (s : List Char) : WordText E (quoteAsWord E.locale s) s := by
  intro special b rest hrest
  obtain ⟨t, h1, h2, _, h4, _⟩ := C12_one_token hL special s b rest hrest
  exact ⟨t, h1, h4, by simp [h2], fun st => by rw [h2]; exact C12_one_field E hL hR s st⟩

/-- Characters that mean themselves everywhere in a word. -/
def Ordinary (L : Locale) (c : Char) : Prop :=
  c ∉ "\"'\\$`\n;&|<>(){*?[~#".toList ∧ L.blank c = false

/-- A word of plain characters. -/
theorem plain_text (hL : E.locale.Ok) (hR : E.long.Ok) (s : List Char) (hne : s ≠ [])
    (h : ∀ c ∈ s, Ordinary E.locale c) : WordText E s s := by
  intro special b rest hrest
  have hflat : ((s.map Seg.chr).map segText).flatten = s := by
    rw [List.map_map]
    exact flatten_singletons s
  have hplain : ∀ g ∈ s.map Seg.chr, PlainSeg E.locale g := by
    intro g hg
    obtain ⟨c, hc, rfl⟩ := List.mem_map.1 hg
    obtain ⟨h1, h2⟩ := h c hc
    simp at h1
    simp [PlainSeg, h1, h2]
  have hp := parse_segs hL special rest hrest (s.map Seg.chr) hplain (s ++ rest).length.succ [] b
    (by rw [hflat]; simp only [List.length_append]; omega)
  rw [hflat] at hp
  have hsu : stringUnit ([] ++ s) = [.str s] := by simp [stringUnit, hne]
  rw [hsu] at hp
  obtain ⟨c, r, rfl⟩ : ∃ c r, s = c :: r := by
    cases s with
    | nil => exact absurd rfl hne
    | cons c r => exact ⟨c, r, rfl⟩
  obtain ⟨h1, h2⟩ := h c List.mem_cons_self
  simp at h1
  have hl : lineCont (c :: (r ++ rest)) = c :: (r ++ rest) := lineCont_cons c _ (by simp [h1])
  refine ⟨{
      type :=
        if (rest.head? == some '<' || rest.head? == some '>') && Syntax.isDigitsOnly [.str (c :: r)] then .ioNumber
        else Syntax.reservedWordOf [.str (c :: r)]
      word := [.str (c :: r)]
      text := c :: r
      src := ⟨(c :: r).reverse ++ b, rest⟩ }, ?_, rfl, by simp, ?_⟩
  · simp only [nextToken, List.cons_append]
    rw [skipBlanks_word E.locale b c _ h2 hl]
    have hcom : skipComment ⟨b, c :: (r ++ rest)⟩ = ⟨b, c :: (r ++ rest)⟩ := by
      unfold skipComment
      split
      · rename_i heq
        simp only [List.cons.injEq] at heq
        exact absurd heq.1 (by simp [h1])
      · rfl
    rw [hcom]
    simp only [tokenAt]
    rw [if_neg (by simp [h1]), if_neg (by simp [h1]), if_neg (by simp [h1]), if_neg (by simp [h1]),
      if_neg (by simp [h1]), if_neg (by simp [h1]), if_neg (by simp [h1]), if_neg (by simp [h1])]
    simp only [parseWord]
    have hk : (((c :: r).reverse ++ b).take (((c :: r).reverse ++ b).length - b.length)).reverse = c :: r := by
      rw [show ((c :: r).reverse ++ b).length - b.length = (c :: r).reverse.length by simp only [List.length_append]; omega,
        List.take_left, List.reverse_reverse]
    rw [← List.cons_append, hp]
    dsimp only
    rw [hk]
  · intro st
    have := C43_literal_word E hL hR st ((c :: r).map Seg.chr) ?_ ?_ (by simp) ((c :: r).map fun c => [c])
      (map_literal_chr _) [.str (c :: r)] (by
        have := writes_text E.locale _ hplain
        rw [hflat] at this
        exact this)
    · rw [flatten_singletons] at this
      exact this
    · intro g hg
      obtain ⟨d, hd, rfl⟩ := List.mem_map.1 hg
      have := (h d hd).1
      simp at this
      simp [Seg.Ok, this]
    · intro r' hr'
      simp at hr'
      exact absurd hr'.1 (by simp [h1])

theorem nextToken_space (hsp : E.locale.blank ' ' = true) (special : Special) (b r : List Char) :
    nextToken E.locale special ⟨b, ' ' :: r⟩ = nextToken E.locale special ⟨' ' :: b, r⟩ := by
  simp only [nextToken]
  rw [show skipBlanks E.locale b (' ' :: r) = skipBlanks E.locale (' ' :: b) r by
    rw [skipBlanks.eq_def]
    split
    · rename_i heq; cases heq
    · rename_i heq; cases heq; rw [if_pos hsp]
    · rename_i heq; cases heq]

theorem nextToken_newline (hnl : E.locale.blank '\n' = false) (special : Special) (b r : List Char) :
    ∃ t, nextToken E.locale special ⟨b, '\n' :: r⟩ = some t ∧ t.type = .newline ∧ t.src.rest = r := by
  simp only [nextToken]
  rw [skipBlanks_word E.locale b '\n' r hnl (lineCont_cons _ _ (by decide))]
  exact ⟨_, rfl, rfl, rfl⟩

/-- The words of a line, separated by one blank each. -/
def lineOf : List (List Char) → List Char
  | [] => ['\n']
  | [w] => w ++ ['\n']
  | w :: w' :: ws => w ++ ' ' :: lineOf (w' :: ws)

/-- A line is read as it was written. -/
theorem reads_line (hsp : E.locale.blank ' ' = true) (hnl : E.locale.blank '\n' = false) (special : Special)
    (ws : List (List Char × List Char)) (h : ∀ w ∈ ws, WordText E w.1 w.2) (b rest : List Char) :
    ReadsLine E special ⟨b, lineOf (ws.map (·.1)) ++ rest⟩ (ws.map (·.2)) rest := by
  induction ws generalizing b with
  | nil =>
    obtain ⟨t, h1, h2, h3⟩ := nextToken_newline hnl special b rest
    rw [← h3]
    exact .nil _ t (by rw [h3]; exact h1) h2
  | cons w ws ih =>
    cases ws with
    | nil =>
      obtain ⟨t, h1, h2, h3, h4⟩ := h w List.mem_cons_self special b ('\n' :: rest)
        (by intro c r hc; cases hc; simp [isTokenDelimiter])
      refine .cons _ t _ _ _ ?_ h3 h4 ?_
      · simpa [lineOf] using h1
      · rw [h2]
        obtain ⟨t', h1', h2', h3'⟩ := nextToken_newline hnl special (w.1.reverse ++ b) rest
        have := ReadsLine.nil (E := E) (special := special) _ t' h1' h2'
        rw [h3'] at this
        exact this
    | cons w' ws =>
      obtain ⟨t, h1, h2, h3, h4⟩ := h w List.mem_cons_self special b (' ' :: (lineOf ((w' :: ws).map (·.1)) ++ rest))
        (by intro c r hc; cases hc; simp [isTokenDelimiter, hsp])
      refine .cons _ t _ _ _ ?_ h3 h4 ?_
      · simpa [lineOf] using h1
      · rw [h2]
        have := ih (fun x hx => h x (List.mem_cons_of_mem _ hx)) (' ' :: (w.1.reverse ++ b))
        generalize lineOf ((w' :: ws).map (·.1)) ++ rest = src at this ⊢
        generalize (w' :: ws).map (·.2) = out at this ⊢
        cases this with
        | nil _ t g1 g2 => exact .nil _ t (by rw [nextToken_space hsp]; exact g1) g2
        | cons _ t s ss _ g1 g2 g3 g4 => exact .cons _ t s ss _ (by rw [nextToken_space hsp]; exact g1) g2 g3 g4

end Yash.Expand
