import Verif.Parser.SimpleCmd
/-!
# The parser never goes back further than where it started
-/
set_option autoImplicit false

namespace Yash.Parser

open Syntax
open Expand (Locale)

variable {L : Locale} {R : Rec}

/-! ## Text -/

theorem lineCont_length (r : List Char) : (lineCont r).length ≤ r.length := by
  fun_induction lineCont r <;> simp at * <;> omega

/-- The position has not moved back, and no text has been added. -/
def Fwd (st st' : Src) : Prop :=
  st'.rest.length ≤ st.rest.length ∧ st'.before.length + st'.rest.length ≤ st.before.length + st.rest.length

/-- Some text has been read. -/
def Fwd1 (st st' : Src) : Prop :=
  st'.rest.length < st.rest.length ∧ st'.before.length + st'.rest.length ≤ st.before.length + st.rest.length

/-- Decides facts about the lengths of texts. -/
macro "fwd" : tactic =>
  `(tactic| (simp only [Fwd, Fwd1, List.length_cons, List.length_append, List.length_reverse, List.length_nil, List.length_take, List.length_drop] at *; omega))

theorem Fwd.refl (a : Src) : Fwd a a := ⟨Nat.le_refl _, Nat.le_refl _⟩

theorem of_lineCont {r r' : List Char} (h : lineCont r = r') : r'.length ≤ r.length := h ▸ lineCont_length r

/-- The function for special word units reads text if it finds one. -/
def SpecialPr (special : Special) : Prop :=
  ∀ indq st u st', special indq st = some (u, st') → Fwd st st' ∧ (u ≠ none → Fwd1 st st')

theorem parseWordLoop_fwd {sp : Special} {delim : Char → Bool} (hs : SpecialPr sp) (n : Nat) {indq : Bool} {acc : List Char} {st st' : Src} {w : Word}
    (h : parseWordLoop sp delim n indq acc st = some (w, st')) : Fwd st st' := by
  induction n generalizing indq acc st w st' with
  | zero => simp [parseWordLoop] at h
  | succ n ih =>
    obtain ⟨b, r⟩ := st
    rw [parseWordLoop] at h
    split at h
    · rename_i hl
      split at h
      · cases h
      · cases h
        fwd
    · rename_i c r1 hl
      have hl := of_lineCont hl
      split at h
      · cases h
        fwd
      · split at h
        · split at h
          · have := ih h
            fwd
          · have := ih h
            fwd
        · split at h
          · split at h
            · cases h
            · rename_i u st1 h1
              have g1 := (hs _ _ _ _ h1).2 (by simp)
              split at h
              · cases h
              · rename_i w1 st2 h2
                have g2 := ih h2
                cases h
                fwd
            · rename_i b1 h1
              have g1 := (hs _ _ _ _ h1).1
              cases h
              fwd
            · rename_i b1 d r2 h1
              have g1 := (hs _ _ _ _ h1).1
              split at h
              · cases h
              · rename_i w1 st2 h2
                have g2 := ih h2
                cases h
                fwd
          · split at h
            · split at h
              · cases h
              · rename_i d r' hd
                have g0 : (r1.takeWhile (· ≠ '\'')).length + (r1.dropWhile (· ≠ '\'')).length = r1.length := by
                  rw [← List.length_append, List.takeWhile_append_dropWhile]
                rw [hd] at g0
                have := ih h
                fwd
            · have := ih h
              fwd

/-- Some text is read if it does not begin with a delimiter. -/
theorem parseWordLoop_fwd1 {sp : Special} {delim : Char → Bool} (hs : SpecialPr sp) (n : Nat) {acc b r : List Char} {c : Char} {st' : Src} {w : Word}
    (hc : delim c = false) (hl : lineCont (c :: r) = c :: r) (h : parseWordLoop sp delim n false acc ⟨b, c :: r⟩ = some (w, st')) :
    Fwd1 ⟨b, c :: r⟩ st' := by
  cases n with
  | zero => simp [parseWordLoop] at h
  | succ n =>
    rw [parseWordLoop, hl] at h
    simp only [hc, Bool.not_false, Bool.and_false, Bool.false_eq_true, if_false] at h
    split at h
    · split at h
      · have := parseWordLoop_fwd hs _ h
        fwd
      · have := parseWordLoop_fwd hs _ h
        fwd
    · split at h
      · split at h
        · cases h
        · rename_i u st1 h1
          have g1 := (hs _ _ _ _ h1).2 (by simp)
          split at h
          · cases h
          · rename_i w1 st2 h2
            have g2 := parseWordLoop_fwd hs _ h2
            cases h
            fwd
        · rename_i b1 h1
          have g1 := (hs _ _ _ _ h1).1
          cases h
          fwd
        · rename_i b1 d r2 h1
          have g1 := (hs _ _ _ _ h1).1
          split at h
          · cases h
          · rename_i w1 st2 h2
            have g2 := parseWordLoop_fwd hs _ h2
            cases h
            fwd
      · split at h
        · split at h
          · cases h
          · rename_i d r' hd
            have g0 : (r.takeWhile (· ≠ '\'')).length + (r.dropWhile (· ≠ '\'')).length = r.length := by
              rw [← List.length_append, List.takeWhile_append_dropWhile]
            rw [hd] at g0
            have := parseWordLoop_fwd hs _ h
            fwd
        · have := parseWordLoop_fwd hs _ h
          fwd

theorem parseWord_fwd {sp : Special} {delim : Char → Bool} (hs : SpecialPr sp) {st st' : Src} {w : Word} (h : parseWord sp delim st = some (w, st')) :
    Fwd st st' := parseWordLoop_fwd hs _ h

/-! ## Tokens -/

theorem skipBlanks_fwd (b r : List Char) : Fwd ⟨b, r⟩ (skipBlanks L b r) ∧ lineCont (skipBlanks L b r).rest = (skipBlanks L b r).rest ∧
    ∀ c ∈ (skipBlanks L b r).rest.head?, L.blank c = false := by
  fun_induction skipBlanks L b r with
  | case1 b r ih => exact ⟨by have := ih.1; fwd, ih.2⟩
  | case2 b c r hn hb ih => exact ⟨by have := ih.1; fwd, ih.2⟩
  | case3 b c r hn hb =>
    refine ⟨by fwd, ?_, by simpa using hb⟩
    unfold lineCont
    split
    · rename_i heq
      cases heq
      exact absurd rfl (hn _ rfl)
    · rfl
  | case4 b => exact ⟨by fwd, rfl, by simp⟩

theorem skipComment_fwd (st : Src) (hl : lineCont st.rest = st.rest) (hb : ∀ c ∈ st.rest.head?, L.blank c = false) (hn : L.blank '\n' = false) :
    Fwd st (skipComment st) ∧ lineCont (skipComment st).rest = (skipComment st).rest ∧ ∀ c ∈ (skipComment st).rest.head?, L.blank c = false := by
  obtain ⟨b, r⟩ := st
  unfold skipComment
  split
  · rename_i r1 hr
    simp only at hr
    subst hr
    have g0 : (r1.takeWhile (· ≠ '\n')).length + (r1.dropWhile (· ≠ '\n')).length = r1.length := by
      rw [← List.length_append, List.takeWhile_append_dropWhile]
    refine ⟨by fwd, ?_⟩
    have : r1.dropWhile (· ≠ '\n') = [] ∨ ∃ t, r1.dropWhile (· ≠ '\n') = '\n' :: t := by
      clear g0 hl hb
      induction r1 with
      | nil => exact .inl rfl
      | cons c r ih =>
        by_cases hc : c = '\n'
        · subst hc
          exact .inr ⟨r, by simp⟩
        · rw [List.dropWhile_cons, if_pos (by simpa using hc)]
          exact ih
    rcases this with h | ⟨t, h⟩
    · rw [h]
      exact ⟨rfl, by simp⟩
    · rw [h]
      exact ⟨rfl, by simpa using hn⟩
  · exact ⟨Fwd.refl _, hl, hb⟩

/-- One for a token that is not the end of the input. -/
def bonus (tk : Token) : Nat := if tk.type = .eoi ∧ tk.word = [] then 0 else 1

theorem bonus_type {tk : Token} (h : tk.type ≠ .eoi) : bonus tk = 1 := by simp [bonus, h]
theorem bonus_word {tk : Token} (h : tk.word ≠ []) : bonus tk = 1 := by simp [bonus, h]
theorem bonus_le (tk : Token) : bonus tk ≤ 1 := by unfold bonus; split <;> omega

/-- The token comes after the position. -/
structure After (st : Src) (tk : Token) : Prop where
  size : tk.src.rest.length + bonus tk ≤ st.rest.length
  total : tk.src.before.length + tk.src.rest.length ≤ st.before.length + st.rest.length
  text : tk.type = .lparen ∨ tk.type = .pipe ∨ tk.type = .pipepipe → tk.text.length + tk.src.rest.length ≤ st.rest.length ∧ tk.text.length ≤ tk.src.before.length

theorem opToken_after {t : TokenType} {text b r r' : List Char} (h : r'.length + text.length ≤ r.length) (ht : 1 ≤ text.length) : After ⟨b, r⟩ (opToken t text b r') := by
  have := bonus_le (opToken t text b r')
  constructor
  · simp only [opToken] at *; omega
  · simp only [opToken] at *; fwd
  · intro _; simp only [opToken] at *; fwd

theorem reservedWordOf_not_op (w : Word) : reservedWordOf w ≠ .lparen ∧ reservedWordOf w ≠ .pipe ∧ reservedWordOf w ≠ .pipepipe := by
  have h := (reservedWordOf_type w).2
  refine ⟨?_, ?_, ?_⟩ <;> intro e <;> rw [e] at h <;> cases h

theorem tokenAt_after {sp : Special} (hs : SpecialPr sp) {st : Src} {tk : Token} (hl : lineCont st.rest = st.rest)
    (hb : ∀ c ∈ st.rest.head?, L.blank c = false) (h : tokenAt L sp st = some tk) : After st tk := by
  obtain ⟨b, r⟩ := st
  cases r with
  | nil =>
    simp only [tokenAt] at h
    cases h
    exact ⟨by simp [bonus], by simp, by simp⟩
  | cons c r =>
    have hb := hb c (by simp)
    simp only [tokenAt] at h
    split at h
    · cases h
      exact opToken_after (by simp) (by simp)
    split at h
    · cases h
      exact opToken_after (by simp) (by simp)
    split at h
    · cases h
      exact opToken_after (by simp) (by simp)
    split at h
    · split at h
      · rename_i hr
        have := of_lineCont hr
        cases h
        exact opToken_after (by simp at *; omega) (by decide)
      · cases h
        have := lineCont_length r
        exact opToken_after (by simp at *; omega) (by decide)
    split at h
    · split at h
      · rename_i hr
        have := of_lineCont hr
        cases h
        exact opToken_after (by simp at *; omega) (by decide)
      · cases h
        have := lineCont_length r
        exact opToken_after (by simp at *; omega) (by decide)
    split at h
    · split at h
      · rename_i hr
        have := of_lineCont hr
        cases h
        exact opToken_after (by simp at *; omega) (by decide)
      · cases h
        have := lineCont_length r
        exact opToken_after (by simp at *; omega) (by decide)
    split at h
    · split at h
      iterate 3
        · rename_i hr
          have := of_lineCont hr
          cases h
          exact opToken_after (by simp at *; omega) (by decide)
      · rename_i r1 hr
        have := of_lineCont hr
        split at h
        iterate 2
          · rename_i hr1
            have := of_lineCont hr1
            cases h
            exact opToken_after (by simp at *; omega) (by decide)
        · cases h
          have := lineCont_length r1
          exact opToken_after (by simp at *; omega) (by decide)
      · cases h
        have := lineCont_length r
        exact opToken_after (by simp at *; omega) (by decide)
    split at h
    · split at h
      iterate 3
        · rename_i hr
          have := of_lineCont hr
          cases h
          exact opToken_after (by simp at *; omega) (by decide)
      · rename_i r1 hr
        have := of_lineCont hr
        split at h
        · rename_i hr1
          have := of_lineCont hr1
          cases h
          exact opToken_after (by simp at *; omega) (by decide)
        · cases h
          have := lineCont_length r1
          exact opToken_after (by simp at *; omega) (by decide)
      · cases h
        have := lineCont_length r
        exact opToken_after (by simp at *; omega) (by decide)
    · rename_i n1 n2 n3 n4 n5 n6 n7 n8
      split at h
      · cases h
      · rename_i w st1 h1
        have hd : isTokenDelimiter L c = false := by simp at *; simp [isTokenDelimiter, *]
        have g := parseWordLoop_fwd1 hs _ hd hl h1
        cases h
        refine ⟨?_, ?_, fun hw => absurd hw ?_⟩
        · have := bonus_le { type :=
            if (st1.rest.head? == some '<' || st1.rest.head? == some '>') && isDigitsOnly w then .ioNumber
            else reservedWordOf w, word := w, text := (st1.before.take (st1.before.length - b.length)).reverse, src := st1 }
          fwd
        · fwd
        · have := reservedWordOf_not_op w
          simp only
          split
          · simp
          · simp [this]

theorem nextToken_after (hn : L.blank '\n' = false) {sp : Special} (hs : SpecialPr sp) {st : Src} {tk : Token} (h : nextToken L sp st = some tk) :
    After st tk := by
  obtain ⟨b, r⟩ := st
  obtain ⟨h1, h2, h3⟩ := skipBlanks_fwd (L := L) b r
  obtain ⟨h4, h5, h6⟩ := skipComment_fwd (L := L) _ h2 h3 hn
  obtain ⟨h7, h8, h9⟩ := tokenAt_after hs h5 h6 h
  refine ⟨by fwd, by fwd, fun ht => ?_⟩
  have := h9 ht
  fwd

/-! ## Word units -/

theorem takeName_length (p : Char → Bool) (r : List Char) : (takeName p r).1.length + (takeName p r).2.length ≤ r.length := by
  fun_induction takeName p r <;> simp_all <;> omega

theorem rawParam_fwd (b r : List Char) : Fwd ⟨b, '$' :: r⟩ (rawParam b r).2 ∧ ((rawParam b r).1 ≠ none → Fwd1 ⟨b, '$' :: r⟩ (rawParam b r).2) := by
  have hl := lineCont_length r
  unfold rawParam
  split
  · refine ⟨by fwd, by simp⟩
  · rename_i c r1 hr
    rw [hr] at hl
    split
    · exact ⟨by fwd, fun _ => by fwd⟩
    · split
      · have := takeName_length isPortableNameChar (c :: r1)
        exact ⟨by fwd, fun _ => by fwd⟩
      · exact ⟨by fwd, by simp⟩

theorem backquote_fwd {bsdq : Bool} {acc b r s : List Char} {st : Src} (h : backquote bsdq acc b r = some (s, st)) : Fwd1 ⟨b, r⟩ st := by
  fun_induction backquote bsdq acc b r
  all_goals first
    | (cases h; done)
    | (cases h; fwd)
    | (rename_i ih; have := ih h; fwd)

/-- The functions for nested constructs do not go back. -/
structure Prog (R : Rec) : Prop where
  special : SpecialPr R.special
  brace : ∀ st u st', R.brace st = some (u, st') → Fwd st st'
  list : ∀ tk l tk', R.list tk = some (l, tk') → tk'.src.rest.length + bonus tk' ≤ tk.src.rest.length + bonus tk ∧
    tk'.src.before.length + tk'.src.rest.length ≤ tk.src.before.length + tk.src.rest.length
  compound : ∀ tk c tk', R.compound tk = some (c, tk') → tk'.src.rest.length + bonus tk' ≤ tk.src.rest.length + bonus tk ∧
    tk'.src.before.length + tk'.src.rest.length ≤ tk.src.before.length + tk.src.rest.length ∧ (c ≠ none → tk'.src.rest.length + bonus tk' ≤ tk.src.rest.length)
  ors : ∀ tk e tk', R.ors tk = some (e, tk') → tk'.src.rest.length + bonus tk' ≤ tk.src.rest.length ∧
    tk'.src.before.length + tk'.src.rest.length ≤ tk.src.before.length + tk.src.rest.length

theorem arithLoop_fwd (hR : Prog R) (n : Nat) {nest : Nat} {acc : List Char} {st st' : Src} {w : Option Word}
    (h : arithLoop R n nest acc st = some (w, st')) : Fwd st st' := by
  induction n generalizing nest acc st w st' with
  | zero => simp [arithLoop] at h
  | succ n ih =>
    obtain ⟨b, r⟩ := st
    rw [arithLoop] at h
    split at h
    · cases h
    · rename_i c r1 hl
      have hl := of_lineCont hl
      split at h
      · split at h
        · cases h
        · have := ih h
          fwd
      split at h
      · split at h
        · cases h
        · rename_i u st1 h1
          have g1 := (hR.special _ _ _ _ h1).1
          split at h
          · cases h
          · rename_i st2 h2
            have g2 := ih h2
            cases h
            fwd
          · rename_i w2 st2 h2
            have g2 := ih h2
            cases h
            fwd
        · cases h
        · rename_i b1 d r2 h1
          have g1 := (hR.special _ _ _ _ h1).1
          split at h
          · cases h
          · rename_i st2 h2
            have g2 := ih h2
            cases h
            fwd
          · rename_i w2 st2 h2
            have g2 := ih h2
            cases h
            fwd
      split at h
      · have := ih h
        fwd
      split at h
      · split at h
        · have := ih h
          fwd
        · split at h
          · cases h
          · rename_i d r2 hl2
            have hl2 := of_lineCont hl2
            split at h
            · cases h
              fwd
            · cases h
              fwd
      · have := ih h
        fwd

theorem cmdsub_fwd (hn : L.blank '\n' = false) (hR : Prog R) {st st' : Src} {u : WordUnit} (h : cmdsub L R st = some (u, st')) : Fwd st st' := by
  simp only [cmdsub, Option.bind_eq_bind, Option.bind_eq_some_iff] at h
  obtain ⟨tk1, h1, ⟨l, tk2⟩, h2, h⟩ := h
  have g1 := nextToken_after hn hR.special h1
  have g2 := hR.list _ _ _ h2
  split at h
  · cases h
    have := g1.size
    have := g1.total
    fwd
  · cases h

theorem numberMark_fwd (b r : List Char) : Fwd ⟨b, r⟩ (numberMark b r).2 := by
  have hl := lineCont_length r
  unfold numberMark
  split
  · rename_i r1 hr
    rw [hr] at hl
    have hl1 := lineCont_length r1
    split
    · fwd
    · rename_i c r2 hr1
      rw [hr1] at hl1
      have hl2 := lineCont_length r2
      split
      · fwd
      · split
        · split <;> fwd
        · fwd
  · fwd

theorem paramName_fwd {b r : List Char} {x : ParamBase} {st : Src} (h : paramName L b r = some (x, st)) : Fwd ⟨b, r⟩ st := by
  unfold paramName at h
  split at h
  · cases h
  · rename_i c r1
    split at h
    · cases h
      fwd
    · have := takeName_length (isNameChar L) (c :: r1)
      split at h
      · cases h
      · rename_i n r2 heq
        rw [heq] at this
        cases h
        fwd

theorem paramBase_fwd (hR : Prog R) {st st' : Src} {x : ParamBase} (h : paramBase L R st = some (x, st')) : Fwd st st' := by
  unfold paramBase at h
  split at h
  · simp only [Option.bind_eq_bind, Option.bind_eq_some_iff] at h
    obtain ⟨⟨u, st1⟩, h1, h⟩ := h
    have := hR.brace _ _ _ h1
    cases h
    fwd
  · split at h
    · rename_i u st1 h1
      have := (hR.special _ _ _ _ h1).1
      cases h
      have := lineCont_length st1.rest
      fwd
    · cases h
  · rename_i b r
    have := lineCont_length r
    split at h
    · split at h
      · rename_i u st1 h1
        have := (hR.special _ _ _ _ h1).1
        cases h
        have := lineCont_length st1.rest
        fwd
      · cases h
    · have := paramName_fwd h
      fwd
  · exact paramName_fwd h

theorem paramIndex_fwd (hR : Prog R) {st st' : Src} {w w' : Word} (h : paramIndex R st = some (w, w', st')) : Fwd st st' := by
  unfold paramIndex at h
  split at h
  · simp only [Option.bind_eq_bind, Option.bind_eq_some_iff] at h
    obtain ⟨⟨w1, st1⟩, h1, h⟩ := h
    have := parseWord_fwd hR.special h1
    simp only at h
    split at h
    · cases h
    · split at h
      · rename_i b1 r1
        cases h
        have := lineCont_length r1
        fwd
      · simp only [Option.bind_eq_some_iff] at h
        obtain ⟨⟨w2, st2⟩, h2, h⟩ := h
        have := parseWord_fwd hR.special h2
        simp only at h
        split at h
        · cases h
        · split at h
          · rename_i b1 r1
            cases h
            have := lineCont_length r1
            fwd
          · cases h
      · cases h
  · cases h
    exact Fwd.refl _

theorem paramColon_fwd (st : Src) : Fwd st (paramColon st).2 := by
  unfold paramColon
  split
  · rename_i b r
    have := lineCont_length r
    fwd
  · exact Fwd.refl _

theorem paramSubst_fwd (hR : Prog R) {st st' : Src} {w : Word} (h : paramSubst R st = some (w, st')) : Fwd st st' := by
  simp only [paramSubst, Option.bind_eq_bind, Option.bind_eq_some_iff] at h
  obtain ⟨⟨w1, st1⟩, h1, h⟩ := h
  have := parseWord_fwd hR.special h1
  simp only at h
  split at h
  · cases h
    fwd
  · cases h

theorem paramReplace_fwd (hR : Prog R) {st st' : Src} {p w : Word} (h : paramReplace R st = some (p, w, st')) : Fwd st st' := by
  simp only [paramReplace, Option.bind_eq_bind, Option.bind_eq_some_iff] at h
  obtain ⟨⟨w1, st1⟩, h1, h⟩ := h
  have := parseWord_fwd hR.special h1
  simp only at h
  split at h
  · simp only [Option.bind_eq_some_iff] at h
    obtain ⟨⟨w2, st2⟩, h2, h⟩ := h
    have := paramSubst_fwd hR h2
    cases h
    fwd
  · cases h
    fwd
  · cases h

theorem paramMod_fwd (hR : Prog R) {number colon : Bool} {st st' : Src} {t : ParamType} {p w : Word}
    (h : paramMod R number colon st = some (t, p, w, st')) : Fwd st st' := by
  unfold paramMod at h
  split at h
  · rename_i b c r
    have hl := lineCont_length r
    split at h
    · split at h
      · cases h
      · cases h
        fwd
    split at h
    · cases h
    split at h
    · simp only [Option.bind_eq_bind, Option.bind_eq_some_iff] at h
      obtain ⟨⟨w1, st1⟩, h1, h⟩ := h
      have := paramSubst_fwd hR h1
      cases h
      fwd
    split at h
    · split at h
      · cases h
      split at h
      · rename_i hh
        cases hr : lineCont r with
        | nil => simp [hr] at hh
        | cons d r1 =>
          rw [hr] at h hl
          simp only [Option.bind_eq_bind, Option.bind_eq_some_iff, List.tail_cons] at h
          obtain ⟨⟨w1, st1⟩, h1, h⟩ := h
          have := paramSubst_fwd hR h1
          cases h
          fwd
      · simp only [Option.bind_eq_bind, Option.bind_eq_some_iff] at h
        obtain ⟨⟨w1, st1⟩, h1, h⟩ := h
        have := paramSubst_fwd hR h1
        cases h
        fwd
    split at h
    · split at h
      · simp only [Option.bind_eq_bind, Option.bind_eq_some_iff] at h
        obtain ⟨⟨w0, w1, st1⟩, h1, h⟩ := h
        have := paramReplace_fwd hR h1
        cases h
        fwd
      split at h
      · cases h
      · rename_i d r1 hr
        rw [hr] at hl
        repeat' split at h
        all_goals
          simp only [Option.bind_eq_bind, Option.bind_eq_some_iff] at h
          obtain ⟨⟨w0, w1, st1⟩, h1, h⟩ := h
          have := paramReplace_fwd hR h1
          cases h
          fwd
    · cases h
  · cases h

theorem brace_fwd (hR : Prog R) {st st' : Src} {u : WordUnit} (h : brace L R st = some (u, st')) : Fwd st st' := by
  simp only [brace, Option.bind_eq_bind, Option.bind_eq_some_iff] at h
  obtain ⟨⟨base, st1⟩, h1, ⟨w1, w2, st2⟩, h2, ⟨t, p, w, st3⟩, h3, h⟩ := h
  have g0 := numberMark_fwd st.before st.rest
  have g1 := paramBase_fwd hR h1
  have g2 := paramIndex_fwd hR h2
  have g3 := paramColon_fwd st2
  have g4 := paramMod_fwd hR h3
  cases h
  fwd

theorem rewind_length (b : List Char) (st : Src) : (rewind b st).rest.length = (st.before.length - b.length) + st.rest.length ∧ (rewind b st).before = b := by
  refine ⟨?_, rfl⟩
  simp only [rewind, List.length_append, List.length_reverse, List.length_take]
  omega

theorem special_fwd (hn : L.blank '\n' = false) (hR : Prog R) : SpecialPr (special L R) := by
  intro indq st u st' h
  unfold special at h
  split at h
  · rename_i b r
    have hl := lineCont_length r
    split at h
    · rename_i r1 hr
      rw [hr] at hl
      simp only [Option.bind_eq_bind, Option.bind_eq_some_iff] at h
      obtain ⟨⟨u1, st1⟩, h1, h⟩ := h
      have := brace_fwd hR h1
      cases h
      exact ⟨by fwd, fun _ => by fwd⟩
    · rename_i r1 hr
      rw [hr] at hl
      have hl1 := lineCont_length r1
      split at h
      · rename_i r2 hr1
        rw [hr1] at hl1
        split at h
        · cases h
        · rename_i w st1 h1
          have := arithLoop_fwd hR _ h1
          cases h
          exact ⟨by fwd, fun _ => by fwd⟩
        · rename_i st1 h1
          simp only [Option.bind_eq_bind, Option.bind_eq_some_iff] at h
          obtain ⟨⟨u1, st2⟩, h2, h⟩ := h
          have g1 := arithLoop_fwd hR _ h1
          have g2 := cmdsub_fwd hn hR h2
          obtain ⟨g3, g4⟩ := rewind_length ('(' :: '$' :: b) st1
          simp only [Fwd, g3, g4] at g2
          cases h
          exact ⟨by fwd, fun _ => by fwd⟩
      · simp only [Option.bind_eq_bind, Option.bind_eq_some_iff] at h
        obtain ⟨⟨u1, st2⟩, h2, h⟩ := h
        have g2 := cmdsub_fwd hn hR h2
        cases h
        exact ⟨by fwd, fun _ => by fwd⟩
    · obtain ⟨g1, g2⟩ := rawParam_fwd b (lineCont r)
      rw [Option.some.inj h] at g1 g2
      refine ⟨by fwd, fun hne => ?_⟩
      have := g2 hne
      fwd
  · rename_i b r
    simp only [Option.bind_eq_bind, Option.bind_eq_some_iff] at h
    obtain ⟨⟨s, st1⟩, h1, h⟩ := h
    have := backquote_fwd h1
    cases h
    exact ⟨by fwd, fun _ => by fwd⟩
  · cases h

/-! ## Commands -/

/-- The token is not before the other one. -/
def TFwd (tk tk' : Token) : Prop :=
  tk'.src.rest.length + bonus tk' ≤ tk.src.rest.length + bonus tk ∧
    tk'.src.before.length + tk'.src.rest.length ≤ tk.src.before.length + tk.src.rest.length

/-- The token is after the other one. -/
def TFwd1 (tk tk' : Token) : Prop :=
  tk'.src.rest.length + bonus tk' ≤ tk.src.rest.length ∧
    tk'.src.before.length + tk'.src.rest.length ≤ tk.src.before.length + tk.src.rest.length

theorem TFwd.refl (tk : Token) : TFwd tk tk := ⟨Nat.le_refl _, Nat.le_refl _⟩
theorem TFwd1.fwd {a b : Token} (h : TFwd1 a b) : TFwd a b := ⟨by have := h.1; omega, h.2⟩
theorem TFwd.trans {a b c : Token} (h : TFwd a b) (h' : TFwd b c) : TFwd a c := ⟨Nat.le_trans h'.1 h.1, Nat.le_trans h'.2 h.2⟩
theorem TFwd1.trans {a b c : Token} (h : TFwd1 a b) (h' : TFwd b c) : TFwd1 a c := ⟨Nat.le_trans h'.1 h.1, Nat.le_trans h'.2 h.2⟩
theorem TFwd1.trans1 {a b c : Token} (h : TFwd1 a b) (h' : TFwd1 b c) : TFwd1 a c := h.trans h'.fwd
theorem TFwd.trans1' {a b c : Token} (h : TFwd a b) (h' : TFwd1 b c) : TFwd a c := h.trans h'.fwd

/-- The second token has been read from the first one, which is not the end. -/
theorem TFwd.trans1 {a b c : Token} (h : TFwd a b) (h' : TFwd1 b c) (ha : bonus a = 0 → bonus b = 0) (hb : bonus b = 1) : TFwd1 a c := by
  have := h.1; have := h'.1; have := h.2; have := h'.2
  have h1 : bonus a ≤ 1 := bonus_le a
  have h2 : bonus a ≠ 0 := fun e => by have := ha e; omega
  constructor <;> omega

section
variable (hn : L.blank '\n' = false) (hR : Prog R)
include hn hR

theorem next_fwd {tk tk' : Token} (h : next L R tk = some tk') : TFwd1 tk tk' := by
  have := nextToken_after hn hR.special h
  exact ⟨this.size, this.total⟩

theorem expect_fwd {ty : TokenType} {tk tk' : Token} (h : expect L R ty tk = some tk') : TFwd1 tk tk' := by
  unfold expect at h
  split at h
  · exact next_fwd hn hR h
  · cases h

theorem newlinesLoop_fwd (n : Nat) {tk tk' : Token} (h : newlinesLoop L R n tk = some tk') : TFwd tk tk' := by
  induction n generalizing tk with
  | zero => simp [newlinesLoop] at h
  | succ n ih =>
    rw [newlinesLoop] at h
    split at h
    · simp only [Option.bind_eq_bind, Option.bind_eq_some_iff] at h
      obtain ⟨tk1, h1, h⟩ := h
      exact ((next_fwd hn hR h1).trans (ih h)).fwd
    · cases h
      exact .refl _

theorem newlines_fwd {tk tk' : Token} (h : newlines L R tk = some tk') : TFwd tk tk' := newlinesLoop_fwd hn hR _ h

theorem wordsLoop_fwd (skip : Bool) (n : Nat) {tk tk' : Token} {ws : List Word} (h : wordsLoop L R skip n tk = some (ws, tk')) : TFwd tk tk' := by
  induction n generalizing tk tk' ws with
  | zero => simp [wordsLoop] at h
  | succ n ih =>
    rw [wordsLoop] at h
    split at h
    · simp only [Option.bind_eq_bind, Option.bind_eq_some_iff] at h
      obtain ⟨tk1, h1, h⟩ := h
      exact (newlines_fwd hn hR h1).trans (ih h)
    · split at h
      · cases h
        exact .refl _
      · simp only [Option.bind_eq_bind, Option.bind_eq_some_iff] at h
        obtain ⟨tk1, h1, ⟨ws1, tk2⟩, h2, h⟩ := h
        cases h
        exact ((next_fwd hn hR h1).trans (ih h2)).fwd

theorem redirBody_fwd {fd : Nat} {tk tk' : Token} {x : Redir} (h : redirBody L R fd tk = some (x, tk')) : TFwd1 tk tk' := by
  unfold redirBody at h
  split at h
  · simp only [Option.bind_eq_bind, Option.bind_eq_some_iff] at h
    obtain ⟨tk1, h1, h⟩ := h
    split at h
    · cases h
    · simp only [Option.bind_eq_some_iff] at h
      obtain ⟨tk2, h2, h⟩ := h
      cases h
      exact (next_fwd hn hR h1).trans1 (next_fwd hn hR h2)
  · split at h
    · simp only [Option.bind_eq_bind, Option.bind_eq_some_iff] at h
      obtain ⟨tk1, h1, ⟨l, tk2⟩, h2, h⟩ := h
      split at h
      · simp only [Option.bind_eq_some_iff] at h
        obtain ⟨tk3, h3, h⟩ := h
        cases h
        exact ((next_fwd hn hR h1).trans (hR.list _ _ _ h2)).trans1 (next_fwd hn hR h3)
      · cases h
    · cases h

theorem tryRedirect_fwd {tk tk' : Token} {x : Option Redir} (h : tryRedirect L R tk = some (x, tk')) :
    (x = none → tk' = tk) ∧ (x ≠ none → TFwd1 tk tk' ∧ bonus tk = 1) := by
  unfold tryRedirect at h
  split at h
  · rename_i ht
    simp only [Option.bind_eq_bind, Option.bind_eq_some_iff] at h
    obtain ⟨tk1, h1, ⟨r, tk2⟩, h2, h⟩ := h
    cases h
    exact ⟨by simp, fun _ => ⟨(next_fwd hn hR h1).trans1 (redirBody_fwd hn hR h2), bonus_type fun e => by simp [e] at ht⟩⟩
  · split at h
    · rename_i ht
      simp only [Option.bind_eq_bind, Option.bind_eq_some_iff] at h
      obtain ⟨⟨r, tk2⟩, h2, h⟩ := h
      cases h
      exact ⟨by simp, fun _ => ⟨redirBody_fwd hn hR h2, bonus_type fun e => by simp [e, startsLess] at ht⟩⟩
    · split at h
      · rename_i ht
        simp only [Option.bind_eq_bind, Option.bind_eq_some_iff] at h
        obtain ⟨⟨r, tk2⟩, h2, h⟩ := h
        cases h
        exact ⟨by simp, fun _ => ⟨redirBody_fwd hn hR h2, bonus_type fun e => by simp [e, startsGreater] at ht⟩⟩
      · cases h
        exact ⟨fun _ => rfl, by simp⟩

theorem redirsLoop_fwd (n : Nat) {tk tk' : Token} {rs : List Redir} (h : redirsLoop L R n tk = some (rs, tk')) : TFwd tk tk' := by
  induction n generalizing tk tk' rs with
  | zero => simp [redirsLoop] at h
  | succ n ih =>
    rw [redirsLoop] at h
    split at h
    · cases h
    · rename_i tk1 h1
      cases h
      rw [(tryRedirect_fwd hn hR h1).1 rfl]
      exact .refl _
    · rename_i r tk1 h1
      simp only [Option.bind_eq_bind, Option.bind_eq_some_iff] at h
      obtain ⟨⟨rs1, tk2⟩, h5, h⟩ := h
      cases h
      exact (((tryRedirect_fwd hn hR h1).2 (by simp)).1.trans (ih h5)).fwd

theorem splitAssign_ne {w w' : Word} {name : List Char} (h : splitAssign L w = some (name, w')) : w ≠ [] := by
  rintro rfl
  simp [splitAssign] at h

theorem tryAssign_fwd {tk tk' : Token} {x : Option Assign} (h : tryAssign L R tk = some (x, tk')) :
    (x = none → tk' = tk) ∧ (x ≠ none → TFwd1 tk tk' ∧ bonus tk = 1) := by
  unfold tryAssign at h
  split at h
  · cases h
    exact ⟨fun _ => rfl, by simp⟩
  · rename_i name w hsp
    have hb := bonus_word (splitAssign_ne hn hR hsp)
    simp only [Option.bind_eq_bind, Option.bind_eq_some_iff] at h
    obtain ⟨tk1, h1, h⟩ := h
    split at h
    · simp only [Option.bind_eq_some_iff] at h
      obtain ⟨tk2, h2, ⟨ws, tk3⟩, h3, h⟩ := h
      split at h
      · simp only [Option.bind_eq_some_iff] at h
        obtain ⟨tk4, h4, h⟩ := h
        cases h
        exact ⟨by simp, fun _ => ⟨(((next_fwd hn hR h1).trans1 (next_fwd hn hR h2)).trans (wordsLoop_fwd hn hR _ _ h3)).trans1 (next_fwd hn hR h4), hb⟩⟩
      · cases h
    · cases h
      exact ⟨by simp, fun _ => ⟨next_fwd hn hR h1, hb⟩⟩

/-- A simple command has read something if it is not empty. -/
theorem simpleLoop_fwd (n : Nat) {first : Bool} {tk tk' : Token} {S : Simple} (h : simpleLoop L R n first tk = some (S, tk')) :
    TFwd tk tk' ∧ (¬(S.words = [] ∧ S.assigns = [] ∧ S.redirs = []) → TFwd1 tk tk' ∧ bonus tk = 1) := by
  induction n generalizing first tk tk' S with
  | zero => simp [simpleLoop] at h
  | succ n ih =>
    rw [simpleLoop] at h
    split at h
    · cases h
    · rename_i r tk1 h1
      obtain ⟨g1, g2⟩ := (tryRedirect_fwd hn hR h1).2 (by simp)
      simp only [Option.bind_eq_bind, Option.bind_eq_some_iff] at h
      obtain ⟨⟨S1, tk2⟩, h5, h⟩ := h
      cases h
      have := g1.trans (ih h5).1
      exact ⟨this.fwd, fun _ => ⟨this, g2⟩⟩
    · rename_i tk1 h1
      have := (tryRedirect_fwd hn hR h1).1 rfl
      subst this
      have hta : ∀ x tk2, (if first = true then tryAssign L R tk1 else some (none, tk1)) = some (x, tk2) →
          (x = none → tk2 = tk1) ∧ (x ≠ none → TFwd1 tk1 tk2 ∧ bonus tk1 = 1) := by
        intro x tk2 hx
        cases first
        · cases hx
          exact ⟨fun _ => rfl, by simp⟩
        · exact tryAssign_fwd hn hR hx
      split at h
      · cases h
      · rename_i a tk2 ha
        obtain ⟨g1, g2⟩ := (hta _ _ ha).2 (by simp)
        simp only [Option.bind_eq_bind, Option.bind_eq_some_iff] at h
        obtain ⟨⟨S1, tk3⟩, h5, h⟩ := h
        cases h
        have := g1.trans (ih h5).1
        exact ⟨this.fwd, fun _ => ⟨this, g2⟩⟩
      · rename_i tk2 ha
        have := (hta _ _ ha).1 rfl
        subst this
        split at h
        · cases h
          exact ⟨.refl _, by simp⟩
        · rename_i hne
          simp only [Option.bind_eq_bind, Option.bind_eq_some_iff] at h
          obtain ⟨tk3, h4, ⟨S1, tk4⟩, h5, h⟩ := h
          cases h
          have := (next_fwd hn hR h4).trans (ih h5).1
          exact ⟨this.fwd, fun _ => ⟨this, bonus_word (by simpa using hne)⟩⟩

/-! ## Compound commands -/

theorem group_fwd {tk tk' : Token} {c : Command} (h : group L R tk = some (c, tk')) : TFwd1 tk tk' := by
  simp only [group, Option.bind_eq_bind, Option.bind_eq_some_iff] at h
  obtain ⟨tk1, h1, ⟨l, tk2⟩, h2, h⟩ := h
  split at h
  all_goals
    simp only [Option.bind_eq_some_iff] at h
    obtain ⟨tk3, h3, h⟩ := h
    cases h
    exact ((next_fwd hn hR h1).trans (hR.list _ _ _ h2)).trans1 (expect_fwd hn hR h3)

theorem ifLoop_fwd (n : Nat) {tk tk' : Token} {cs : List IfClause} (h : ifLoop L R n tk = some (cs, tk')) : TFwd tk tk' := by
  induction n generalizing tk tk' cs with
  | zero => simp [ifLoop] at h
  | succ n ih =>
    simp only [ifLoop, Option.bind_eq_bind, Option.bind_eq_some_iff] at h
    obtain ⟨⟨c, tk1⟩, h1, tk2, h2, ⟨b, tk3⟩, h3, h⟩ := h
    have g1 : TFwd tk tk1 := hR.list _ _ _ h1
    have g3 : TFwd tk2 tk3 := hR.list _ _ _ h3
    have g := (g1.trans1' (expect_fwd hn hR h2)).trans g3
    split at h
    · simp only [Option.bind_eq_some_iff] at h
      obtain ⟨tk4, h4, ⟨e, tk5⟩, h5, tk6, h6, h⟩ := h
      cases h
      exact ((g.trans1' (next_fwd hn hR h4)).trans (hR.list _ _ _ h5)).trans1' (expect_fwd hn hR h6)
    · split at h
      · simp only [Option.bind_eq_some_iff] at h
        obtain ⟨tk4, h4, ⟨cs1, tk5⟩, h5, h⟩ := h
        cases h
        exact (g.trans1' (next_fwd hn hR h4)).trans (ih h5)
      · simp only [Option.bind_eq_some_iff] at h
        obtain ⟨tk4, h4, h⟩ := h
        cases h
        exact g.trans1' (expect_fwd hn hR h4)

theorem forWords_fwd {late : Bool} {tk tk' : Token} {ws : Option (List Word)} (h : forWords L R late tk = some (ws, tk')) : TFwd tk tk' := by
  unfold forWords at h
  split at h
  · simp only [Option.bind_eq_bind, Option.bind_eq_some_iff] at h
    obtain ⟨tk1, h1, ⟨v, tk2⟩, h2, h⟩ := h
    have g := (next_fwd hn hR h1).trans (wordsLoop_fwd hn hR _ _ h2)
    split at h
    · simp only [Option.bind_eq_some_iff] at h
      obtain ⟨tk3, h3, h⟩ := h
      cases h
      exact (g.trans1 (next_fwd hn hR h3)).fwd
    · cases h
      exact g.fwd
  · split at h
    · split at h
      · cases h
      · simp only [Option.bind_eq_bind, Option.bind_eq_some_iff] at h
        obtain ⟨tk1, h1, h⟩ := h
        cases h
        exact (next_fwd hn hR h1).fwd
    · cases h
      exact .refl _

theorem forCommand_fwd {tk tk' : Token} {c : Command} (h : forCommand L R tk = some (c, tk')) : TFwd1 tk tk' := by
  simp only [forCommand, Option.bind_eq_bind, Option.bind_eq_some_iff] at h
  obtain ⟨tk1, h1, h⟩ := h
  split at h
  · simp only [Option.bind_eq_some_iff] at h
    obtain ⟨tk2, h2, tk3, h3, ⟨ws, tk4⟩, h4, tk5, h5, tk6, h6, ⟨l, tk7⟩, h7, tk8, h8, h⟩ := h
    cases h
    exact (((((((next_fwd hn hR h1).trans1 (next_fwd hn hR h2)).trans (newlines_fwd hn hR h3)).trans (forWords_fwd hn hR h4)).trans
      (newlines_fwd hn hR h5)).trans1 (expect_fwd hn hR h6)).trans (hR.list _ _ _ h7)).trans1 (expect_fwd hn hR h8)
  · cases h

theorem whileCommand_fwd {tk tk' : Token} {c : Command} (h : whileCommand L R tk = some (c, tk')) : TFwd1 tk tk' := by
  simp only [whileCommand, Option.bind_eq_bind, Option.bind_eq_some_iff] at h
  obtain ⟨tk1, h1, ⟨c1, tk2⟩, h2, tk3, h3, ⟨l, tk4⟩, h4, tk5, h5, h⟩ := h
  cases h
  exact ((((next_fwd hn hR h1).trans (hR.list _ _ _ h2)).trans1 (expect_fwd hn hR h3)).trans (hR.list _ _ _ h4)).trans1 (expect_fwd hn hR h5)

theorem patternsLoop_fwd (n : Nat) {tk tk' : Token} {ps : List Word} (h : patternsLoop L R n tk = some (ps, tk')) : TFwd1 tk tk' ∧ bonus tk = 1 := by
  induction n generalizing tk tk' ps with
  | zero => simp [patternsLoop] at h
  | succ n ih =>
    rw [patternsLoop] at h
    split at h
    · cases h
    · rename_i hne
      refine ⟨?_, bonus_word (by simpa using hne)⟩
      simp only [Option.bind_eq_bind, Option.bind_eq_some_iff] at h
      obtain ⟨tk1, h1, h⟩ := h
      have g := next_fwd hn hR h1
      split at h
      · simp only [Option.bind_eq_some_iff] at h
        obtain ⟨tk2, h2, ⟨ps1, tk3⟩, h3, h⟩ := h
        cases h
        exact (g.trans1 (next_fwd hn hR h2)).trans1 (ih h3).1
      · simp only [Option.bind_eq_some_iff] at h
        obtain ⟨tk2, h2, h⟩ := h
        cases h
        exact g.trans1 (expect_fwd hn hR h2)

theorem patterns_fwd {tk tk' : Token} {ps : List Word} (h : patterns L R tk = some (ps, tk')) : TFwd1 tk tk' ∧ bonus tk = 1 := by
  unfold patterns at h
  split at h
  · rename_i ht
    simp only [Option.bind_eq_bind, Option.bind_eq_some_iff] at h
    obtain ⟨tk1, h1, h⟩ := h
    exact ⟨(next_fwd hn hR h1).trans1 (patternsLoop_fwd hn hR _ h).1, bonus_type fun e => by simp [e] at ht⟩
  · exact patternsLoop_fwd hn hR _ h

theorem caseLoop_fwd (n : Nat) {tk tk' : Token} {cs : List CaseItem} (h : caseLoop L R n tk = some (cs, tk')) : TFwd tk tk' := by
  induction n generalizing tk tk' cs with
  | zero => simp [caseLoop] at h
  | succ n ih =>
    simp only [caseLoop, Option.bind_eq_bind, Option.bind_eq_some_iff] at h
    obtain ⟨tk1, h1, h⟩ := h
    have g1 := newlines_fwd hn hR h1
    split at h
    · cases h
      exact g1
    · simp only [Option.bind_eq_some_iff] at h
      obtain ⟨⟨ps, tk2⟩, h2, ⟨l, tk3⟩, h3, h⟩ := h
      have g3 : TFwd tk2 tk3 := hR.list _ _ _ h3
      have g := (g1.trans1' (patterns_fwd hn hR h2).1).trans g3
      split at h
      · simp only [Option.bind_eq_some_iff] at h
        obtain ⟨tk4, h4, ⟨cs1, tk5⟩, h5, h⟩ := h
        cases h
        exact (g.trans1' (next_fwd hn hR h4)).trans (ih h5)
      · cases h
        exact g

theorem caseCommand_fwd {tk tk' : Token} {c : Command} (h : caseCommand L R tk = some (c, tk')) : TFwd1 tk tk' := by
  simp only [caseCommand, Option.bind_eq_bind, Option.bind_eq_some_iff] at h
  obtain ⟨tk1, h1, h⟩ := h
  split at h
  · cases h
  · simp only [Option.bind_eq_some_iff] at h
    obtain ⟨tk2, h2, tk3, h3, tk4, h4, ⟨cs, tk5⟩, h5, tk6, h6, h⟩ := h
    cases h
    exact (((((next_fwd hn hR h1).trans1 (next_fwd hn hR h2)).trans (newlines_fwd hn hR h3)).trans1 (expect_fwd hn hR h4)).trans
      (caseLoop_fwd hn hR _ h5)).trans1 (expect_fwd hn hR h6)

/-! ## The double bracket command -/

theorem operand_fwd {tk tk' : Token} {w : Word} (h : operand L R tk = some (w, tk')) : TFwd1 tk tk' ∧ bonus tk = 1 := by
  unfold operand at h
  split at h
  · cases h
  · rename_i hne
    simp at hne
    simp only [Option.bind_eq_bind, Option.bind_eq_some_iff] at h
    obtain ⟨tk1, h1, h⟩ := h
    cases h
    exact ⟨next_fwd hn hR h1, bonus_word hne.2⟩

omit hn in
theorem regexLoop_fwd (n : Nat) {nest : Nat} {acc : List Char} {st st' : Src} {w : Word}
    (h : regexLoop L R n nest acc st = some (w, st')) : Fwd st st' := by
  induction n generalizing nest acc st w st' with
  | zero => simp [regexLoop] at h
  | succ n ih =>
    obtain ⟨b, r⟩ := st
    rw [regexLoop] at h
    split at h
    · cases h
    · rename_i c r1 hl
      have hl := of_lineCont hl
      split at h
      · split at h
        · cases h
        · have := ih h
          fwd
      split at h
      · split at h
        · cases h
        · rename_i u st1 h1
          have g1 := (hR.special _ _ _ _ h1).1
          simp only [Option.bind_eq_bind, Option.bind_eq_some_iff] at h
          obtain ⟨⟨w1, st2⟩, h2, h⟩ := h
          have g2 := ih h2
          cases h
          fwd
        · cases h
        · rename_i b1 d r2 h1
          have g1 := (hR.special _ _ _ _ h1).1
          simp only [Option.bind_eq_bind, Option.bind_eq_some_iff] at h
          obtain ⟨⟨w1, st2⟩, h2, h⟩ := h
          have g2 := ih h2
          cases h
          fwd
      split at h
      · have := ih h
        fwd
      split at h
      · split at h
        · have := ih h
          fwd
        · cases h
      split at h
      · have := ih h
        fwd
      · cases h
        fwd

theorem regexOperand_fwd {tk0 tk tk' : Token} {w : Word} (h0 : next L R tk0 = some tk) (h : regexOperand L R tk = some (w, tk')) : TFwd1 tk0 tk' := by
  obtain ⟨k1, k2, k3⟩ := nextToken_after hn hR.special h0
  unfold regexOperand at h
  split at h
  · split at h
    · rename_i ht
      simp at ht
      obtain ⟨k4, k5⟩ := k3 (by rcases ht with (ht | ht) | ht <;> simp [ht])
      simp only [Option.bind_eq_bind, Option.bind_eq_some_iff] at h
      obtain ⟨⟨w1, st⟩, h1, h⟩ := h
      have g1 := regexLoop_fwd hR _ h1
      obtain ⟨⟨g2, g3⟩, -⟩ := operand_fwd hn hR h
      simp only [TFwd1]
      fwd
    · cases h
  · simp only [Option.bind_eq_bind, Option.bind_eq_some_iff] at h
    obtain ⟨⟨w1, st⟩, h1, h⟩ := h
    have g1 := regexLoop_fwd hR _ h1
    obtain ⟨⟨g2, g3⟩, -⟩ := operand_fwd hn hR h
    simp only [TFwd1]
    fwd

theorem primary_fwd {tk tk' : Token} {e : DbExp} (h : primary L R tk = some (e, tk')) : TFwd1 tk tk' ∧ bonus tk = 1 := by
  unfold primary at h
  split at h
  · rename_i ht
    simp only [Option.bind_eq_bind, Option.bind_eq_some_iff] at h
    obtain ⟨tk1, h1, ⟨e1, tk2⟩, h2, tk3, h3, h⟩ := h
    cases h
    have g2 : TFwd1 tk1 tk2 := hR.ors _ _ _ h2
    exact ⟨((next_fwd hn hR h1).trans1 g2).trans1 (expect_fwd hn hR h3), bonus_type fun e => by simp [e] at ht⟩
  · split at h
    · rename_i op hu
      simp only [Option.bind_eq_bind, Option.bind_eq_some_iff] at h
      obtain ⟨tk1, h1, ⟨w, tk2⟩, h2, h⟩ := h
      cases h
      exact ⟨(next_fwd hn hR h1).trans1 (operand_fwd hn hR h2).1, bonus_word fun e => by simp [e, unaryOf, singleString] at hu⟩
    · simp only [Option.bind_eq_bind, Option.bind_eq_some_iff] at h
      obtain ⟨⟨l, tk1⟩, h1, h⟩ := h
      obtain ⟨g1, g2⟩ := operand_fwd hn hR h1
      refine ⟨?_, g2⟩
      split at h
      · simp only [Option.bind_eq_some_iff] at h
        obtain ⟨tk2, h2, h⟩ := h
        split at h
        · simp only [Option.bind_eq_some_iff] at h
          obtain ⟨⟨w, tk3⟩, h3, h⟩ := h
          cases h
          exact g1.trans1 (regexOperand_fwd hn hR h2 h3)
        · simp only [Option.bind_eq_some_iff] at h
          obtain ⟨⟨w, tk3⟩, h3, h⟩ := h
          cases h
          exact (g1.trans1 (next_fwd hn hR h2)).trans1 (operand_fwd hn hR h3).1
      · cases h
        exact g1

theorem notsLoop_fwd (n : Nat) {tk tk' : Token} {e : DbExp} (h : notsLoop L R n tk = some (e, tk')) : TFwd1 tk tk' ∧ bonus tk = 1 := by
  induction n generalizing tk tk' e with
  | zero => simp [notsLoop] at h
  | succ n ih =>
    rw [notsLoop] at h
    split at h
    · rename_i ht
      simp only [Option.bind_eq_bind, Option.bind_eq_some_iff] at h
      obtain ⟨tk1, h1, ⟨e1, tk2⟩, h2, h⟩ := h
      cases h
      exact ⟨(next_fwd hn hR h1).trans1 (ih h2).1, bonus_type fun e => by simp [e] at ht⟩
    · exact primary_fwd hn hR h

theorem andsLoop_fwd (n : Nat) {tk tk' : Token} {e : DbExp} (h : andsLoop L R n tk = some (e, tk')) : TFwd1 tk tk' ∧ bonus tk = 1 := by
  induction n generalizing tk tk' e with
  | zero => simp [andsLoop] at h
  | succ n ih =>
    simp only [andsLoop, Option.bind_eq_bind, Option.bind_eq_some_iff] at h
    obtain ⟨⟨l, tk1⟩, h1, h⟩ := h
    obtain ⟨g1, g2⟩ := notsLoop_fwd hn hR _ h1
    refine ⟨?_, g2⟩
    split at h
    · simp only [Option.bind_eq_some_iff] at h
      obtain ⟨tk2, h2, ⟨r, tk3⟩, h3, h⟩ := h
      cases h
      exact (g1.trans1 (next_fwd hn hR h2)).trans1 (ih h3).1
    · cases h
      exact g1

theorem orsLoop_fwd (n : Nat) {tk tk' : Token} {e : DbExp} (h : orsLoop L R n tk = some (e, tk')) : TFwd1 tk tk' ∧ bonus tk = 1 := by
  induction n generalizing tk tk' e with
  | zero => simp [orsLoop] at h
  | succ n ih =>
    simp only [orsLoop, Option.bind_eq_bind, Option.bind_eq_some_iff] at h
    obtain ⟨⟨l, tk1⟩, h1, h⟩ := h
    obtain ⟨g1, g2⟩ := andsLoop_fwd hn hR _ h1
    refine ⟨?_, g2⟩
    split at h
    · simp only [Option.bind_eq_some_iff] at h
      obtain ⟨tk2, h2, ⟨r, tk3⟩, h3, h⟩ := h
      cases h
      exact (g1.trans1 (next_fwd hn hR h2)).trans1 (ih h3).1
    · cases h
      exact g1

theorem bracket_fwd {tk tk' : Token} {c : Command} (h : bracket L R tk = some (c, tk')) : TFwd1 tk tk' := by
  simp only [bracket, Option.bind_eq_bind, Option.bind_eq_some_iff] at h
  obtain ⟨tk1, h1, ⟨e, tk2⟩, h2, h⟩ := h
  split at h
  · simp only [Option.bind_eq_some_iff] at h
    obtain ⟨tk3, h3, h⟩ := h
    cases h
    exact ((next_fwd hn hR h1).trans1 (orsLoop_fwd hn hR _ h2).1).trans1 (next_fwd hn hR h3)
  · cases h

/-! ## Functions, pipelines and lists -/

theorem functionBody_fwd {name : Word} {tk tk' : Token} {c : Command} (h : functionBody L R name tk = some (c, tk')) : TFwd tk tk' := by
  simp only [functionBody, Option.bind_eq_bind, Option.bind_eq_some_iff] at h
  obtain ⟨tk1, h1, h⟩ := h
  split at h
  · rename_i body tk2 hc
    cases h
    have := hR.compound _ _ _ hc
    exact (newlines_fwd hn hR h1).trans ⟨this.1, this.2.1⟩
  · cases h

theorem function_fwd {tk tk' : Token} {c : Command} (h : function L R tk = some (c, tk')) : TFwd1 tk tk' := by
  simp only [function, Option.bind_eq_bind, Option.bind_eq_some_iff] at h
  obtain ⟨tk1, h1, h⟩ := h
  split at h
  · cases h
  · simp only [Option.bind_eq_some_iff] at h
    obtain ⟨tk2, h2, h⟩ := h
    have g := (next_fwd hn hR h1).trans1 (next_fwd hn hR h2)
    split at h
    · simp only [Option.bind_eq_some_iff] at h
      obtain ⟨tk3, h3, h⟩ := h
      split at h
      · simp only [Option.bind_eq_some_iff] at h
        obtain ⟨tk4, h4, h⟩ := h
        exact ((g.trans1 (next_fwd hn hR h3)).trans1 (next_fwd hn hR h4)).trans (functionBody_fwd hn hR h)
      · exact g.trans (functionBody_fwd hn hR h)
    · exact g.trans (functionBody_fwd hn hR h)

theorem compoundHead_fwd {tk tk' : Token} {c : Command} (h : compoundHead L R tk = some (some (c, tk'))) : TFwd1 tk tk' ∧ bonus tk = 1 := by
  unfold compoundHead at h
  split at h
  case h_10 => cases h
  all_goals
    rename_i ht
    refine ⟨?_, bonus_type fun e => by rw [e] at ht; cases ht⟩
    simp only [Option.map_eq_some_iff, Option.some.injEq] at h
    obtain ⟨⟨c1, tk1⟩, h1, h2⟩ := h
    cases h2
    first
      | exact group_fwd hn hR h1
      | (simp only [ifCommand, Option.bind_eq_bind, Option.bind_eq_some_iff] at h1
         obtain ⟨tk2, h2, ⟨cs, tk3⟩, h3, h⟩ := h1
         cases h
         exact (next_fwd hn hR h2).trans (ifLoop_fwd hn hR _ h3))
      | exact forCommand_fwd hn hR h1
      | exact function_fwd hn hR h1
      | exact whileCommand_fwd hn hR h1
      | exact caseCommand_fwd hn hR h1
      | exact bracket_fwd hn hR h1

theorem compound_fwd {tk tk' : Token} {c : Option Command} (h : compound L R tk = some (c, tk')) :
    (c = none → tk' = tk) ∧ (c ≠ none → TFwd1 tk tk' ∧ bonus tk = 1) := by
  unfold compound at h
  split at h
  · cases h
  · cases h
    exact ⟨fun _ => rfl, by simp⟩
  · rename_i c1 tk1 h1
    simp only [Option.bind_eq_bind, Option.bind_eq_some_iff] at h
    obtain ⟨⟨rs, tk2⟩, h2, h⟩ := h
    cases h
    obtain ⟨g1, g2⟩ := compoundHead_fwd hn hR h1
    exact ⟨by simp, fun _ => ⟨g1.trans (redirsLoop_fwd hn hR _ h2), g2⟩⟩

theorem command_fwd {tk tk' : Token} {c : Command} (h : command L R tk = some (c, tk')) : TFwd1 tk tk' ∧ bonus tk = 1 := by
  unfold command at h
  split at h
  · cases h
  · split at h
    · cases h
    · rename_i c1 tk1 h1
      cases h
      exact (compound_fwd hn hR h1).2 (by simp)
    · rename_i tk1 h1
      have := (compound_fwd hn hR h1).1 rfl
      subst this
      simp only [Option.bind_eq_bind, Option.bind_eq_some_iff] at h
      obtain ⟨⟨S, tk2⟩, h4, h⟩ := h
      split at h
      · cases h
      · rename_i hne
        obtain ⟨g1, g2⟩ := (simpleLoop_fwd hn hR _ h4).2 (by simpa [and_assoc] using hne)
        refine ⟨?_, g2⟩
        unfold tryFunction at h
        split at h
        · split at h
          · split at h
            · simp only [Option.bind_eq_bind, Option.bind_eq_some_iff] at h
              obtain ⟨tk3, h10, tk4, h11, h⟩ := h
              exact ((g1.trans1 (next_fwd hn hR h10)).trans1 (expect_fwd hn hR h11)).trans (functionBody_fwd hn hR h)
            · cases h
          · cases h
        · cases h
          exact g1

theorem commandsLoop_fwd (n : Nat) {tk tk' : Token} {cs : List Command} (h : commandsLoop L R n tk = some (cs, tk')) : TFwd1 tk tk' ∧ bonus tk = 1 := by
  induction n generalizing tk tk' cs with
  | zero => simp [commandsLoop] at h
  | succ n ih =>
    simp only [commandsLoop, Option.bind_eq_bind, Option.bind_eq_some_iff] at h
    obtain ⟨⟨c, tk1⟩, h1, h⟩ := h
    obtain ⟨g1, g2⟩ := command_fwd hn hR h1
    refine ⟨?_, g2⟩
    split at h
    · simp only [Option.bind_eq_some_iff] at h
      obtain ⟨tk2, h2, tk3, h3, ⟨cs1, tk4⟩, h4, h⟩ := h
      cases h
      exact ((g1.trans1 (next_fwd hn hR h2)).trans (newlines_fwd hn hR h3)).trans1 (ih h4).1
    · cases h
      exact g1

theorem pipeline_fwd {cond : Bool} {tk tk' : Token} {p : Pipeline} (h : pipeline L R cond tk = some (p, tk')) : TFwd1 tk tk' ∧ bonus tk = 1 := by
  unfold pipeline at h
  split at h
  · rename_i ht
    simp only [Option.bind_eq_bind, Option.bind_eq_some_iff] at h
    obtain ⟨tk1, h1, ⟨cs, tk2⟩, h2, h⟩ := h
    cases h
    exact ⟨(next_fwd hn hR h1).trans1 (commandsLoop_fwd hn hR _ h2).1, bonus_type fun e => by simp [e] at ht⟩
  · simp only [Option.bind_eq_bind, Option.bind_eq_some_iff] at h
    obtain ⟨⟨cs, tk2⟩, h2, h⟩ := h
    cases h
    exact commandsLoop_fwd hn hR _ h2

theorem pipelinesLoop_fwd (n : Nat) {cond : Bool} {tk tk' : Token} {ps : List Pipeline} (h : pipelinesLoop L R n cond tk = some (ps, tk')) :
    TFwd1 tk tk' ∧ bonus tk = 1 := by
  induction n generalizing cond tk tk' ps with
  | zero => simp [pipelinesLoop] at h
  | succ n ih =>
    simp only [pipelinesLoop, Option.bind_eq_bind, Option.bind_eq_some_iff] at h
    obtain ⟨⟨p, tk1⟩, h1, h⟩ := h
    obtain ⟨g1, g2⟩ := pipeline_fwd hn hR h1
    refine ⟨?_, g2⟩
    split at h
    · simp only [Option.bind_eq_some_iff] at h
      obtain ⟨tk2, h2, tk3, h3, ⟨ps1, tk4⟩, h4, h⟩ := h
      cases h
      exact ((g1.trans1 (next_fwd hn hR h2)).trans (newlines_fwd hn hR h3)).trans1 (ih h4).1
    · cases h
      exact g1

theorem andOr_fwd {tk tk' : Token} {a : AndOr} (h : andOr L R tk = some (a, tk')) : TFwd1 tk tk' ∧ bonus tk = 1 := by
  simp only [andOr, Option.bind_eq_bind, Option.bind_eq_some_iff] at h
  obtain ⟨⟨ps, tk1⟩, h1, h⟩ := h
  cases h
  exact pipelinesLoop_fwd hn hR _ h1

theorem separator_fwd {tk tk' : Token} {need : Bool} (h : separator L R tk = some (need, tk')) : TFwd tk tk' := by
  unfold separator at h
  split at h
  · simp only [Option.bind_eq_bind, Option.bind_eq_some_iff] at h
    obtain ⟨tk1, h1, h⟩ := h
    cases h
    exact (next_fwd hn hR h1).fwd
  · cases h
    exact .refl _

theorem listLoop_fwd (n : Nat) {need : Bool} {tk tk' : Token} {l : List AndOr} (h : listLoop L R n need tk = some (l, tk')) : TFwd tk tk' := by
  induction n generalizing need tk tk' l with
  | zero => simp [listLoop] at h
  | succ n ih =>
    simp only [listLoop, Option.bind_eq_bind, Option.bind_eq_some_iff] at h
    obtain ⟨tk1, h1, h⟩ := h
    have g1 := newlines_fwd hn hR h1
    split at h
    · cases h
      exact g1
    · simp only [Option.bind_eq_some_iff] at h
      obtain ⟨⟨a, tk2⟩, h2, ⟨need', tk3⟩, h3, ⟨l1, tk4⟩, h4, h⟩ := h
      cases h
      exact ((g1.trans1' (andOr_fwd hn hR h2).1).trans (separator_fwd hn hR h3)).trans (ih h4)

theorem step_prog : Prog (step L R) where
  special := special_fwd hn hR
  brace _ _ _ h := brace_fwd hR h
  list _ _ _ h := listLoop_fwd hn hR _ h
  compound tk c tk' h := by
    obtain ⟨h1, h2⟩ := compound_fwd hn hR h
    by_cases hc : c = none
    · subst hc
      rw [h1 rfl]
      exact ⟨Nat.le_refl _, Nat.le_refl _, by simp⟩
    · have := h2 hc
      exact ⟨this.1.fwd.1, this.1.2, fun _ => this.1.1⟩
  ors _ _ _ h := (orsLoop_fwd hn hR _ h).1

end

theorem parser_prog (hn : L.blank '\n' = false) (n : Nat) : Prog (parser L n) := by
  induction n with
  | zero => constructor <;> (try intro _ _ _ _ h) <;> (try intro _ _ _ h) <;> cases h
  | succ n ih => exact step_prog hn ih

end Yash.Parser
