import Verif.Expand.LineProps
import Verif.Parser.RoundTripProps
/-!
# Words without expansions

The words of which the commands printed by built-ins consist: they are read as one token and expanded to one field, whatever
the state of the shell is.
-/
set_option autoImplicit false

namespace Yash.Restore

open Yash.Expand
open Yash.Expand.Spec (Seg Writes)
open Yash.Syntax

/-- `text` is written with quotes and ordinary characters only, and `value` is what it stands for. -/
def Literal (L : Locale) (text value : List Char) : Prop :=
  ∃ (gs : List Seg) (ts : List (List Char)), gs ≠ [] ∧ (∀ g ∈ gs, PlainSeg L g ∧ g.Ok ∧ g ≠ .bs ' ') ∧
    (∀ r, gs ≠ .chr '~' :: r) ∧ (∀ r, gs ≠ .chr '#' :: r) ∧ gs.map Seg.literal = ts.map some ∧
    (gs.map segText).flatten = text ∧ ts.flatten = value

variable {L : Locale}

theorem safe_char (hL : L.Ok) {c : Char} (h : isSafe L c = true) :
    c ∉ "\"'\\$`\n;&|<>(){*?[~#=:".toList ∧ L.blank c = false := by
  refine ⟨fun hc => ?_, (safe_facts hL h).2⟩
  have h6 : ∀ d ∈ "\"'\\$`\n;&|<>(){*?[~#=:".toList, d ∈ "'\"\\$`;&|<>()~#*?[]{},:=!^\n+@%".toList := by decide
  have h3 : L.alnum c = false := hL.alnum_special c (h6 c hc)
  have h4 : ∀ d ∈ "\"'\\$`\n;&|<>(){*?[~#=:".toList, (d == '.' || d == '-' || d == '_' || d == '/') = false := by decide
  have h5 := h4 c hc
  simp [isSafe, h3] at h h5
  simp [h5] at h

theorem quoteSeg_ok (hL : L.Ok) {g : Seg} (h : QuoteSeg L g) : PlainSeg L g ∧ g.Ok ∧ g ≠ .bs ' ' := by
  refine ⟨h.plain hL, ?_, by rintro rfl; exact absurd h (by simp [QuoteSeg])⟩
  cases g with
  | chr c =>
    have := (safe_char hL h).1
    simp at this
    simp [Spec.Seg.Ok, this]
  | sq s => exact h
  | bs c => trivial
  | dq ps => exact absurd h id

/-- A quoted string. -/
theorem literal_quote (hL : L.Ok) (s : List Char) : Literal L (quoteAsWord L s) s := by
  obtain ⟨gs, ts, h1, h2, h3, h4, h5⟩ := quoteAsWord_segs L s
  refine ⟨gs, ts, h1, fun g hg => quoteSeg_ok hL (h2 g hg), ?_, ?_, h4, h3, h5⟩
  · rintro r rfl
    have := (safe_char hL (h2 (.chr '~') (by simp))).1
    simp at this
  · rintro r rfl
    have := (safe_char hL (h2 (.chr '#') (by simp))).1
    simp at this

/-- Ordinary characters. -/
theorem literal_chars {s : List Char} (hne : s ≠ []) (h : ∀ c ∈ s, Ordinary L c) : Literal L s s := by
  have hch : ∀ c ∈ s, c ≠ '~' ∧ c ≠ '#' := by
    intro c hc
    have := (h c hc).1
    simp at this
    simp [this]
  refine ⟨s.map .chr, s.map fun c => [c], by simpa using hne, ?_, ?_, ?_, map_literal_chr s, ?_, flatten_singletons s⟩
  · intro g hg
    obtain ⟨c, hc, rfl⟩ := List.mem_map.1 hg
    obtain ⟨h1, h2⟩ := h c hc
    simp at h1
    simp [PlainSeg, Spec.Seg.Ok, h1, h2]
  · intro r hr
    cases s with
    | nil => exact absurd rfl hne
    | cons c s =>
      simp at hr
      exact (hch c (by simp)).1 hr.1
  · intro r hr
    cases s with
    | nil => exact absurd rfl hne
    | cons c s =>
      simp at hr
      exact (hch c (by simp)).2 hr.1
  · rw [List.map_map]
    exact flatten_singletons s

/-- Two parts of a word. -/
theorem Literal.append {a b va vb : List Char} (ha : Literal L a va) (hb : Literal L b vb) : Literal L (a ++ b) (va ++ vb) := by
  obtain ⟨gs, ts, h1, h2, h3, h4, h5, h6, h7⟩ := ha
  obtain ⟨gs', ts', _, h2', _, _, h5', h6', h7'⟩ := hb
  refine ⟨gs ++ gs', ts ++ ts', by simp [h1], ?_, ?_, ?_, by simp [h5, h5'], by simp [h6, h6'], by simp [h7, h7']⟩
  · intro g hg
    rcases List.mem_append.1 hg with hg | hg
    · exact h2 g hg
    · exact h2' g hg
  · intro r hr
    cases gs with
    | nil => exact h1 rfl
    | cons g gs =>
      simp at hr
      exact h3 gs (by rw [hr.1])
  · intro r hr
    cases gs with
    | nil => exact h1 rfl
    | cons g gs =>
      simp at hr
      exact h4 gs (by rw [hr.1])

theorem Literal.ne {a va : List Char} (ha : Literal L a va) : a ≠ [] := by
  obtain ⟨gs, ts, h1, h2, h3, h4, h5, h6, h7⟩ := ha
  cases gs with
  | nil => exact absurd rfl h1
  | cons g gs =>
    rw [← h6]
    cases g <;> simp [segText]

/-- It is expanded to one field. -/
theorem Literal.expand {σ : Type} {E : Env σ} (hL : E.locale.Ok) (hR : E.long.Ok) {text value : List Char}
    (h : Literal E.locale text value) (st : σ) : expandMultiple E [.str text] st = .ok st [value] := by
  obtain ⟨gs, ts, h1, h2, h3, h4, h5, h6, h7⟩ := h
  rw [← h7, ← h6]
  exact C43_literal_word E hL hR st gs (fun g hg => (h2 g hg).2.1) h3 h1 ts h5 _ (writes_text E.locale gs fun g hg => (h2 g hg).1)

/-- A list of such words. -/
theorem expand_literals {σ : Type} {E : Env σ} (hL : E.locale.Ok) (hR : E.long.Ok) (ws : List (List Char × List Char))
    (h : ∀ w ∈ ws, Literal E.locale w.1 w.2) (st : σ) :
    expandLine E (ws.map fun w => [.str w.1]) st = .ok st (ws.map (·.2)) := by
  induction ws with
  | nil => rfl
  | cons w ws ih =>
    simp only [List.map_cons, expandLine, bind, M.bind, (h w (by simp)).expand hL hR st, ih fun x hx => h x (by simp [hx])]
    rfl

/-- The characters at which text is quoted or unquoted. -/
theorem stringLoop_quote {σ : Type} (E : Env σ) (hL : L.Ok) (s : σ) (tl : Tilde) (hn : Bool) :
    ∀ (gs : List Seg) (ts : List (List Char)) (st : St), (∀ g ∈ gs, QuoteSeg L g) → gs.map Seg.literal = ts.map some → st.indq = false →
      ∃ st', stringLoop E s tl .word .lit hn st (gs.map segText).flatten = some st' ∧ st'.fields = st.fields ∧
        st'.removeempty = st.removeempty ∧ quoteRemoval .none st'.buf = quoteRemoval .none st.buf ++ ts.flatten
  | [], ts, st, _, h, _ => by
    cases ts with
    | nil => exact ⟨st, by simp [stringLoop], rfl, rfl, by simp⟩
    | cons => simp at h
  | g :: gs, ts, st, hq, h, hi => by
    cases ts with
    | nil => simp at h
    | cons t ts =>
      simp only [List.map_cons, List.cons.injEq] at h
      have hg := hq g (by simp)
      have ih := fun st' => stringLoop_quote E hL s tl hn gs ts st' (fun g hg => hq g (by simp [hg])) h.2
      cases g with
      | chr c =>
        have hc := (safe_char hL hg).1
        simp at hc
        simp [Spec.Seg.literal] at h
        obtain ⟨st', e1, e2, e3, e4⟩ := ih (st.add c { origin := .literal, quoted := false }) hi
        refine ⟨st', ?_, e2, e3, ?_⟩
        · simp only [List.map_cons, List.flatten_cons, segText, List.cons_append, List.nil_append]
          rw [stringLoop.eq_def]
          simp only [hc, hi]
          simpa [CC.lit] using e1
        · rw [e4]
          simp [St.add, quoteRemoval_append, ← h.1]
          rfl
      | sq a =>
        have ha : '\'' ∉ a := hg
        simp [Spec.Seg.literal] at h
        obtain ⟨st', e1, e2, e3, e4⟩ := ih (((st.add '\'' { origin := .literal, quotation := true }).addAll a { origin := .literal, quoted := true }).add
          '\'' { origin := .literal, quotation := true }) hi
        refine ⟨st', ?_, e2, e3, ?_⟩
        · simp only [List.map_cons, List.flatten_cons, segText, List.cons_append, List.append_assoc, List.nil_append]
          rw [stringLoop.eq_def]
          simp only [hi]
          simp only [decide_true, decide_false, Bool.and_true, Bool.true_and, Bool.not_false, if_true, Bool.or_false]
          rw [if_neg (by decide)]
          split
          · rename_i heq
            rw [addSq_append a _ ha] at heq
            simp at heq
          · rename_i heq
            rw [addSq_append a _ ha] at heq
            simp only [Prod.mk.injEq, List.cons.injEq] at heq
            obtain ⟨rfl, _, rfl⟩ := heq
            exact e1
        · rw [e4]
          have hm : quoteRemoval .none (a.map fun c => (c, ({ origin := .literal, quoted := true } : CC))) = a := by
            clear e4 e1 e2 e3 ih h hg hq ha
            induction a with
            | nil => rfl
            | cons c a ih =>
              rw [List.map_cons, ← List.singleton_append, quoteRemoval_append, ih, quoteRemoval_quoted]
              rfl
          simp only [St.add, St.addAll, quoteRemoval_append, hm]
          rw [h.1]
          simp [quoteRemoval]
      | bs c =>
        have hc : c = '\'' := hg
        subst hc
        simp [Spec.Seg.literal] at h
        obtain ⟨st', e1, e2, e3, e4⟩ := ih ((st.add '\\' { origin := .literal, quotation := true }).add '\'' { origin := .literal, quoted := true }) hi
        refine ⟨st', ?_, e2, e3, ?_⟩
        · simp only [List.map_cons, List.flatten_cons, segText, List.cons_append, List.nil_append]
          rw [stringLoop.eq_def]
          simp only [hi]
          simpa [CC.lit, backslashQuotes] using e1
        · rw [e4, ← h.1]
          simp [St.add, quoteRemoval_append, quoteRemoval, shouldEscape]
      | dq ps => exact absurd hg id

/-- A quoted string that is not split into fields stands for the string. -/
theorem quoted_single {σ : Type} {E : Env σ} (hL : E.locale.Ok) (tl : Tilde) (htl : tl ≠ .none) (v : List Char) (st : σ) :
    expandSingle E tl .word .none [.str (quoteAsWord E.locale v)] st = .ok st v := by
  obtain ⟨gs, ts, h1, h2, h3, h4, h5⟩ := quoteAsWord_segs E.locale v
  obtain ⟨st', e1, e2, e3, e4⟩ := stringLoop_quote E hL st tl false gs ts {} h2 h4 rfl
  rw [h3] at e1
  have ht : expandTilde E st tl false (quoteAsWord E.locale v) = none := by
    rw [← h3]
    obtain ⟨c, r, hc, _, _, hh⟩ := quote_head hL gs h1 h2 []
    rw [List.append_nil] at hc
    rw [hc, expandTilde]
    intro w hw
    simp at hw
    rw [hw.1] at hh
    simp at hh
  simp only [expandSingle, bind, M.bind, expandUnits, expandUnit, expandString, List.isEmpty_nil, Bool.not_true, ht]
  simp only [Bool.true_and, show (tl != Tilde.none) = true by simpa using htl, if_true, e1, M.check, pure, M.pure, single]
  have hf : st'.finish = [st'.buf] := by simp [St.finish, e2, e3]
  rw [hf, joinFields, e4, h5]
  rfl

/-- The value of an assignment: a quoted string stands for the string. -/
theorem quoted_value {σ : Type} {E : Env σ} (hL : E.locale.Ok) (v : List Char) (st : σ) :
    expandSingle E .multi .word .none [.str (quoteAsWord E.locale v)] st = .ok st v :=
  quoted_single hL .multi (by decide) v st

end Yash.Restore
