import Verif.Parser.RoundTripProps
import Verif.Parser.Grammar
/-!
# Words that are put together from their parts are read
-/
set_option autoImplicit false

namespace Yash.Parser.Grammar

open Syntax Spec Yash.Parser
open Expand (Locale)

variable {L : Locale}

/-- The characters that end a word. -/
def delimOf (L : Locale) : Place → Char → Bool
  | .token => isTokenDelimiter L
  | .brace => isClosingBrace
  | .pattern => isSlashOrClosingBrace
  | .index => isCommaOrClosingBracket

theorem ends_iff (p : Place) (c : Char) : delimOf L p c = true ↔ Ends L p c := by
  cases p
  · simp [delimOf, isTokenDelimiter, Ends, or_assoc]
  · simp [delimOf, isClosingBrace, Ends]
  · simp [delimOf, isSlashOrClosingBrace, Ends]
  · simp [delimOf, isCommaOrClosingBracket, Ends, or_comm]

theorem delim_false {p : Place} {c : Char} : delimOf L p c = false ↔ ¬Ends L p c := by
  rw [← ends_iff, Bool.not_eq_true]

theorem delim_dollar (hL : LocaleOk L) (p : Place) : delimOf L p '$' = false := by
  cases p
  · exact (delim_false (p := .token)).2 (by simp [Ends, punct_blank hL (c := '$') (by decide)])
  · rfl
  · rfl
  · rfl

theorem stringUnit_eq (acc : List Char) : (if acc = [] then [] else [WordUnit.str acc]) = stringUnit acc := by
  cases acc <;> simp [stringUnit]

theorem join_nil (acc : List Char) : join acc [] = stringUnit acc := by rw [join, stringUnit_eq]

theorem join_text (acc s : List Char) (ps : List Piece) : join acc (.text s :: ps) = join (acc ++ s) ps := by rw [join]

theorem join_unit (acc : List Char) (u : WordUnit) (ps : List Piece) : join acc (.unit u :: ps) = stringUnit acc ++ u :: join [] ps := by
  rw [join, stringUnit_eq]

theorem join_dollar (acc : List Char) (ps : List Piece) : join acc (.dollar :: ps) = stringUnit acc ++ join ['$'] ps := by
  rw [join, stringUnit_eq]

/-- How texts in front change a word. -/
theorem join_split (ps : List Piece) : ∃ v us, (∀ acc, acc ≠ [] → join acc ps = .str (acc ++ v) :: us) ∧
    join [] ps = if v.isEmpty then us else .str v :: us := by
  induction ps with
  | nil => exact ⟨[], [], fun acc h => by simp [join, h], by simp [join]⟩
  | cons p ps ih =>
    obtain ⟨v, us, h1, h2⟩ := ih
    cases p with
    | text s =>
      refine ⟨s ++ v, us, fun acc h => ?_, ?_⟩
      · rw [join_text, h1 _ (by simp [h]), List.append_assoc]
      · rw [join_text, List.nil_append]
        cases s with
        | nil => simpa using h2
        | cons c s => rw [h1 _ (by simp)]; simp
    | dollar =>
      refine ⟨[], join ['$'] ps, fun acc h => ?_, ?_⟩
      · simp [join_dollar, stringUnit, h]
      · simp [join_dollar, stringUnit]
    | unit u =>
      refine ⟨[], u :: join [] ps, fun acc h => ?_, ?_⟩
      · simp [join_unit, stringUnit, h]
      · simp [join_unit, stringUnit]

/-- What is known about the parts of a word. -/
structure PiecesRT (L : Locale) (p : Place) (q : Bool) (ps : List Piece) : Prop where
  rt : ∀ acc, WordRT L (delimOf L p) q acc (firstChar ps) (join acc ps)
  strs : ∀ acc t, WordUnit.str t ∈ join acc ps → t ≠ []
  ne : ∀ acc, acc ≠ [] ∨ ps ≠ [] → join acc ps ≠ []
  head : q = false → ∀ c ∈ firstChar ps, delimOf L p c = false

theorem PiecesRT.nil (p : Place) : PiecesRT L p false [] where
  rt acc := by rw [join_nil]; exact WordRT.done _ _ _
  strs acc t h := by rw [join_nil] at h; exact (stringUnit_ne h).2
  ne acc h := by
    rcases h with h | h
    · simp [join, h]
    · exact absurd rfl h
  head _ c h := by simp [firstChar] at h

theorem PiecesRT.text {p : Place} {q q' : Bool} {x : List Char} {ps : List Piece} (hx : x ≠ []) (h : PiecesRT L p q' ps)
    (hh : q = false → ∀ c ∈ x.head?, delimOf L p c = false)
    (hnorm : ∀ t, lineCont t = t → lineCont (x ++ t) = x ++ t)
    (hread : ∀ (sp : Special) k acc b t, lineCont t = t → parseWordLoop sp (delimOf L p) (k + 1) q acc ⟨b, x ++ t⟩ =
      parseWordLoop sp (delimOf L p) k q' (acc ++ x) ⟨x.reverse ++ b, t⟩) : PiecesRT L p q (.text x :: ps) where
  rt acc := by
    rw [join_text]
    exact (h.rt (acc ++ x)).step x hx hnorm fun sp k b t ht => hread sp k acc b t ht
  strs acc t ht := by rw [join_text] at ht; exact h.strs _ _ ht
  ne acc _ := by rw [join_text]; exact h.ne _ (.inl (by simp [hx]))
  head := hh

theorem PiecesRT.unit (hL : LocaleOk L) {p : Place} {q : Bool} {u : WordUnit} {ps : List Piece} (hu : UnitRT L u) (hs : ∀ t, u ≠ .str t)
    (h : PiecesRT L p q ps) : PiecesRT L p q (.unit u :: ps) where
  rt acc := by
    rw [join_unit]
    exact WordRT.unit (fun _ => delim_dollar hL p) rfl hu (h.rt [])
  strs acc t ht := by
    rw [join_unit] at ht
    simp at ht
    rcases ht with ht | ht | ht
    · exact (stringUnit_ne ht).2
    · exact absurd ht.symm (hs t)
    · exact h.strs _ _ ht
  ne acc _ := by rw [join_unit]; simp
  head _ c hc := by
    simp [firstChar] at hc
    subst hc
    exact delim_dollar hL p

theorem startsParam_iff {c : Char} : startsParam c = true ↔ StartsExpansion c := by
  simp [startsParam, StartsExpansion, isSpecialParam, isDigitChar, isPortableNameChar, or_assoc, or_comm, or_left_comm]

/-- A text that starts with the character. -/
theorem head_text (h : Option Char) : ∃ r, (lineCont r).head? = h := by
  cases h with
  | none => exact ⟨[], rfl⟩
  | some c =>
    refine ⟨[c], ?_⟩
    by_cases hc : c = '\\'
    · subst hc
      rfl
    · rw [lineCont_id hc]
      rfl

theorem PiecesRT.dollar (hL : LocaleOk L) {p : Place} {q : Bool} {ps : List Piece} (hs : ∀ c ∈ firstChar ps, ¬StartsExpansion c)
    (h : PiecesRT L p q ps) : PiecesRT L p q (.dollar :: ps) where
  rt acc := by
    rw [join_dollar]
    obtain ⟨r, hr⟩ := head_text (firstChar ps)
    refine WordRT.dollar (r := r) (fun _ => delim_dollar hL p) ?_ (by rw [hr]; exact h.rt _)
    rw [hr]
    intro d hd
    rw [← Bool.not_eq_true, startsParam_iff]
    exact hs d hd
  strs acc t ht := by
    rw [join_dollar] at ht
    simp only [List.mem_append] at ht
    rcases ht with ht | ht
    · exact (stringUnit_ne ht).2
    · exact h.strs _ _ ht
  ne acc _ := by rw [join_dollar]; simp [h.ne ['$'] (.inl (by simp))]
  head _ c hc := by
    simp [firstChar] at hc
    subst hc
    exact delim_dollar hL p

theorem PiecesRT.char {p : Place} {c : Char} {ps : List Piece} (h1 : ¬Ends L p c) (h2 : c ∉ "\\$`'\"".toList) (h : PiecesRT L p false ps) :
    PiecesRT L p false (.text [c] :: ps) := by
  simp at h2
  have hd := delim_false.2 h1
  refine h.text (by simp) (fun _ d hd' => by simp at hd'; subst hd'; exact hd) (fun t _ => lineCont_id h2.1) ?_
  intro sp k acc b t _
  rw [parseWordLoop]
  simp only [List.cons_append, List.nil_append]
  rw [lineCont_id h2.1]
  simp only
  rw [if_neg (by simp [hd]), if_neg (by simp [h2]), if_neg (by simp [h2]), if_neg (by simp [h2])]
  simp [h2]

theorem PiecesRT.backslash (hL : LocaleOk L) {p : Place} {q : Bool} {c : Char} {ps : List Piece} (h1 : c ≠ '\n') (h : PiecesRT L p q ps) :
    PiecesRT L p q (.text ['\\', c] :: ps) := by
  have hd : delimOf L p '\\' = false := by
    cases p
    · exact (delim_false (p := .token)).2 (by simp [Ends, punct_blank hL (c := '\\') (by decide)])
    · rfl
    · rfl
    · rfl
  refine h.text (by simp) (fun _ d hd' => by simp at hd'; subst hd'; exact hd) (fun t _ => lineCont_bs_id h1) ?_
  intro sp k acc b t _
  simp only [List.cons_append, List.nil_append]
  rw [parseWordLoop, lineCont_bs_id h1]
  simp [hd]

theorem delim_quote (hL : LocaleOk L) (p : Place) {c : Char} (hc : c = '\'' ∨ c = '"') : delimOf L p c = false := by
  cases p
  · refine (delim_false (p := .token)).2 ?_
    rcases hc with rfl | rfl
    · simp [Ends, punct_blank hL (c := '\'') (by decide)]
    · simp [Ends, punct_blank hL (c := '"') (by decide)]
  all_goals rcases hc with rfl | rfl <;> rfl

theorem PiecesRT.single (hL : LocaleOk L) {p : Place} {s : List Char} {ps : List Piece} (h1 : '\'' ∉ s) (h : PiecesRT L p false ps) :
    PiecesRT L p false (.text ('\'' :: s ++ ['\'']) :: ps) := by
  have hd := delim_quote hL p (c := '\'') (.inl rfl)
  refine h.text (by simp) (fun _ d hd' => by simp at hd'; subst hd'; exact hd) (fun t _ => lineCont_id (by decide)) ?_
  intro sp k acc b t _
  simp only [List.cons_append, List.nil_append]
  rw [parseWordLoop, lineCont_id (by decide)]
  simp only
  rw [if_neg (by simp [hd]), if_neg (by decide), if_neg (by decide), if_pos (by decide)]
  have h3 : ∀ c ∈ s, c ≠ '\'' := fun c hc he => h1 (he ▸ hc)
  rw [List.append_assoc, List.singleton_append, (takeWhile_quote s t h3).1, (takeWhile_quote s t h3).2]
  simp

theorem PiecesRT.mark (hL : LocaleOk L) {p : Place} {q : Bool} {ps : List Piece} (h : PiecesRT L p (!q) ps) :
    PiecesRT L p q (.text ['"'] :: ps) := by
  have hd := delim_quote hL p (c := '"') (.inr rfl)
  refine h.text (by simp) (fun _ d hd' => by simp at hd'; subst hd'; exact hd) (fun t _ => lineCont_id (by decide)) ?_
  intro sp k acc b t _
  simp only [List.cons_append, List.nil_append]
  rw [parseWordLoop, lineCont_id (by decide)]
  simp only
  rw [if_neg (by simp [hd]), if_neg (by decide), if_neg (by decide), if_neg (by simp)]
  simp

theorem PiecesRT.quoted {p : Place} {c : Char} {ps : List Piece} (h2 : c ∉ "\\$`\"".toList) (h : PiecesRT L p true ps) :
    PiecesRT L p true (.text [c] :: ps) := by
  simp at h2
  refine h.text (by simp) (by simp) (fun t _ => lineCont_id h2.1) ?_
  intro sp k acc b t _
  rw [parseWordLoop]
  simp only [List.cons_append, List.nil_append]
  rw [lineCont_id h2.1]
  simp only
  rw [if_neg (by simp), if_neg (by simp [h2]), if_neg (by simp [h2]), if_neg (by simp)]
  simp [h2]

/-- Text without quotation in front. -/
theorem PiecesRT.chars {p : Place} {ps : List Piece} (h : PiecesRT L p false ps) (s : List Char)
    (hs : ∀ c ∈ s, ¬Ends L p c ∧ c ∉ "\\$`'\"".toList) : PiecesRT L p false (s.map (fun c => .text [c]) ++ ps) := by
  induction s with
  | nil => exact h
  | cons c s ih => exact .char (hs c (by simp)).1 (hs c (by simp)).2 (ih fun d hd => hs d (by simp [hd]))

theorem join_chars (acc s : List Char) (ps : List Piece) : join acc (s.map (fun c => .text [c]) ++ ps) = join (acc ++ s) ps := by
  induction s generalizing acc with
  | nil => simp
  | cons c s ih => simp [join_text, ih]

/-- Every part of a word has text. -/
theorem PiecesG.head {p : Place} {q : Bool} {ps : List Piece} (h : PiecesG L p q ps) (hne : ps ≠ []) :
    ∃ c, firstChar ps = some c ∧ (q = false → c = '#' → ps.head? = some (.text ['#'])) ∧ (q = false → c = '%' → ps.head? = some (.text ['%'])) := by
  cases h with
  | nil => exact absurd rfl hne
  | char => exact ⟨_, rfl, by rintro - rfl; rfl, by rintro - rfl; rfl⟩
  | backslash => exact ⟨_, rfl, by simp, by simp⟩
  | single => exact ⟨_, rfl, by simp, by simp⟩
  | «open» => exact ⟨_, rfl, by simp, by simp⟩
  | close => exact ⟨_, rfl, by simp, by simp⟩
  | quoted => exact ⟨_, rfl, by simp, by simp⟩
  | dollar => exact ⟨_, rfl, by simp, by simp⟩
  | unit => exact ⟨_, rfl, by simp, by simp⟩

/-- A word of a command is read as a token. -/
theorem PiecesRT.item {ps : List Piece} (h : PiecesRT L .token false ps) (hne : ps ≠ []) (hc : firstChar ps ≠ some '#') : ItemWord L (join [] ps) where
  rt := by
    intro ml i buf
    obtain ⟨s, h1, h2, h3, h4, h5⟩ := (h.rt []).parse ml i buf
    cases s with
    | nil => exact absurd (h2 rfl) (h.ne [] (.inr hne))
    | cons c s =>
      have hh := h3 (by simp)
      simp at hh
      exact ⟨c, s, h1, h.head rfl c (by rw [← hh]; simp), by rintro rfl; exact hc hh.symm, h4, h5⟩
  ne := h.ne [] (.inr hne)
  strs := h.strs []

/-! ## Arithmetic expressions -/

structure ArithPiecesRT (L : Locale) (nest : Nat) (ps : List Piece) : Prop where
  rt : ∀ acc, ArithRT L nest acc (firstChar ps) (join acc ps)

theorem ArithPiecesRT.nil : ArithPiecesRT L 0 [] := ⟨fun acc => by rw [join_nil]; exact ArithRT.done _ _⟩

theorem ArithPiecesRT.text {nest nest' : Nat} {x : List Char} {ps : List Piece} (hx : x ≠ []) (h : ArithPiecesRT L nest' ps)
    (hnorm : ∀ t, lineCont t = t → lineCont (x ++ t) = x ++ t)
    (hread : ∀ R k acc b t, lineCont t = t → arithLoop R (k + 1) nest acc ⟨b, x ++ t⟩ = arithLoop R k nest' (acc ++ x) ⟨x.reverse ++ b, t⟩) :
    ArithPiecesRT L nest (.text x :: ps) :=
  ⟨fun acc => by
    rw [join_text]
    exact (h.rt (acc ++ x)).step x hx hnorm fun R k b t ht => hread R k acc b t ht⟩

theorem ArithPiecesRT.unit {nest : Nat} {u : WordUnit} {ps : List Piece} (hu : UnitRT L u) (h : ArithPiecesRT L nest ps) :
    ArithPiecesRT L nest (.unit u :: ps) :=
  ⟨fun acc => by rw [join_unit]; exact ArithRT.unit hu (h.rt [])⟩

theorem ArithPiecesRT.dollar {nest : Nat} {ps : List Piece} (hs : ∀ c ∈ firstChar ps, ¬StartsExpansion c) (h : ArithPiecesRT L nest ps) :
    ArithPiecesRT L nest (.dollar :: ps) :=
  ⟨fun acc => by
    rw [join_dollar]
    obtain ⟨r, hr⟩ := head_text (firstChar ps)
    refine ArithRT.dollar (r := r) ?_ (by rw [hr]; exact h.rt _)
    rw [hr]
    intro d hd
    rw [← Bool.not_eq_true, startsParam_iff]
    exact hs d hd⟩

theorem ArithPiecesRT.char {nest : Nat} {c : Char} {ps : List Piece} (h2 : c ∉ "\\$`()".toList) (h : ArithPiecesRT L nest ps) :
    ArithPiecesRT L nest (.text [c] :: ps) := by
  simp at h2
  refine h.text (by simp) (fun t _ => lineCont_id h2.1) ?_
  intro R k acc b t _
  simp only [List.cons_append, List.nil_append]
  rw [arithLoop, lineCont_id h2.1]
  simp only
  rw [if_neg (by simp [h2]), if_neg (by simp [h2]), if_neg (by simp [h2]), if_neg (by simp [h2])]
  simp

theorem ArithPiecesRT.backslash {nest : Nat} {c : Char} {ps : List Piece} (h1 : c ≠ '\n') (h : ArithPiecesRT L nest ps) :
    ArithPiecesRT L nest (.text ['\\', c] :: ps) := by
  refine h.text (by simp) (fun t _ => lineCont_bs_id h1) ?_
  intro R k acc b t _
  simp only [List.cons_append, List.nil_append]
  rw [arithLoop, lineCont_bs_id h1]
  simp

theorem ArithPiecesRT.open {nest : Nat} {ps : List Piece} (h : ArithPiecesRT L (nest + 1) ps) : ArithPiecesRT L nest (.text ['('] :: ps) := by
  refine h.text (by simp) (fun t _ => lineCont_id (by decide)) ?_
  intro R k acc b t _
  simp only [List.cons_append, List.nil_append]
  rw [arithLoop, lineCont_id (by decide)]
  simp

theorem ArithPiecesRT.close {nest : Nat} {ps : List Piece} (h : ArithPiecesRT L nest ps) : ArithPiecesRT L (nest + 1) (.text [')'] :: ps) := by
  refine h.text (by simp) (fun t _ => lineCont_id (by decide)) ?_
  intro R k acc b t _
  simp only [List.cons_append, List.nil_append]
  rw [arithLoop, lineCont_id (by decide)]
  simp

/-! ## Regular expressions -/

structure RegexPiecesRT (L : Locale) (nest : Nat) (ps : List Piece) : Prop where
  rt : ∀ acc, RegexRT L nest acc (firstChar ps) (join acc ps)

theorem RegexPiecesRT.nil (hL : LocaleOk L) : RegexPiecesRT L 0 [] := ⟨fun acc => by rw [join_nil]; exact RegexRT.done hL _ _⟩

theorem RegexPiecesRT.text {nest nest' : Nat} {x : List Char} {ps : List Piece} (hx : x ≠ []) (hp : x.head? = some '|' → x.tail = [])
    (h : RegexPiecesRT L nest' ps) (hnorm : ∀ t, lineCont t = t → lineCont (x ++ t) = x ++ t)
    (hread : ∀ R k acc b t, lineCont t = t → regexLoop L R (k + 1) nest acc ⟨b, x ++ t⟩ = regexLoop L R k nest' (acc ++ x) ⟨x.reverse ++ b, t⟩) :
    RegexPiecesRT L nest (.text x :: ps) :=
  ⟨fun acc => by
    rw [join_text]
    exact (h.rt (acc ++ x)).step x hx hp hnorm fun R k b t ht => hread R k acc b t ht⟩

theorem RegexPiecesRT.unit {nest : Nat} {u : WordUnit} {ps : List Piece} (hu : UnitRT L u) (h : RegexPiecesRT L nest ps) :
    RegexPiecesRT L nest (.unit u :: ps) :=
  ⟨fun acc => by rw [join_unit]; exact RegexRT.unit hu (h.rt [])⟩

theorem RegexPiecesRT.dollar {nest : Nat} {ps : List Piece} (hs : ∀ c ∈ firstChar ps, ¬StartsExpansion c) (h : RegexPiecesRT L nest ps) :
    RegexPiecesRT L nest (.dollar :: ps) :=
  ⟨fun acc => by
    rw [join_dollar]
    obtain ⟨r, hr⟩ := head_text (firstChar ps)
    refine RegexRT.dollar (r := r) ?_ (by rw [hr]; exact h.rt _)
    rw [hr]
    intro d hd
    rw [← Bool.not_eq_true, startsParam_iff]
    exact hs d hd⟩

theorem RegexPiecesRT.char {nest : Nat} {c : Char} {ps : List Piece} (h2 : c ∉ "\\$`()".toList)
    (h3 : nest ≠ 0 ∨ c = '|' ∨ ¬Ends L .token c) (h : RegexPiecesRT L nest ps) : RegexPiecesRT L nest (.text [c] :: ps) := by
  simp at h2
  refine h.text (by simp) (by simp) (fun t _ => lineCont_id h2.1) ?_
  intro R k acc b t _
  simp only [List.cons_append, List.nil_append]
  rw [regexLoop, lineCont_id h2.1]
  simp only
  rw [if_neg (by simp [h2]), if_neg (by simp [h2]), if_neg (by simp [h2]), if_neg (by simp [h2]), if_pos]
  · simp
  · rcases h3 with h3 | h3 | h3
    · simp [h3]
    · simp [h3]
    · have : isTokenDelimiter L c = false := (delim_false (p := .token)).2 h3
      simp [this]

theorem RegexPiecesRT.backslash {nest : Nat} {c : Char} {ps : List Piece} (h1 : c ≠ '\n') (h : RegexPiecesRT L nest ps) :
    RegexPiecesRT L nest (.text ['\\', c] :: ps) := by
  refine h.text (by simp) (by simp) (fun t _ => lineCont_bs_id h1) ?_
  intro R k acc b t _
  simp only [List.cons_append, List.nil_append]
  rw [regexLoop, lineCont_bs_id h1]
  simp

theorem RegexPiecesRT.open {nest : Nat} {ps : List Piece} (h : RegexPiecesRT L (nest + 1) ps) : RegexPiecesRT L nest (.text ['('] :: ps) := by
  refine h.text (by simp) (by simp) (fun t _ => lineCont_id (by decide)) ?_
  intro R k acc b t _
  simp only [List.cons_append, List.nil_append]
  rw [regexLoop, lineCont_id (by decide)]
  simp

theorem RegexPiecesRT.close {nest : Nat} {ps : List Piece} (h : RegexPiecesRT L nest ps) : RegexPiecesRT L (nest + 1) (.text [')'] :: ps) := by
  refine h.text (by simp) (by simp) (fun t _ => lineCont_id (by decide)) ?_
  intro R k acc b t _
  simp only [List.cons_append, List.nil_append]
  rw [regexLoop, lineCont_id (by decide)]
  simp

end Yash.Parser.Grammar
