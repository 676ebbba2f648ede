import Verif.Complete.Parse
import Verif.Complete.Typed
/-!
# Lemmas about finding out what is completed
-/
set_option autoImplicit false

namespace Yash.Complete

open Expand (Locale Env PlainSeg PlainPart segText segPlain partText partPlain St Op opStep Valid Inert quoteRemoval stringLoop
  expandSingle expandMultiple unescape segOps dop CC CWord)
open Expand.Spec (Seg DPart)
open Spec (Open Typed CommandWord Before Blanks)
open Syntax (isTokenDelimiter isDigitChar isNameChar)

/-! ## Scanning -/

theorem scan_sq (L : Locale) (r : List Char) : ∀ (s acc : List Char), '\'' ∉ s →
    scanWord L false true acc (s ++ r) = scanWord L false true (acc ++ s) r
  | [], acc, _ => by simp
  | c :: s, acc, h => by
    simp only [List.mem_cons, not_or] at h
    rw [List.cons_append, scanWord.eq_def]
    simp only [if_true]
    rw [show (c != '\'') = true by simpa using Ne.symm h.1, scan_sq L r s _ h.2]
    simp

theorem scan_parts (L : Locale) (r : List Char) : ∀ (ps : List DPart) (acc : List Char), (∀ p ∈ ps, PlainPart p) →
    scanWord L true false acc (partsText ps ++ r) = scanWord L true false (acc ++ partsText ps) r
  | [], acc, _ => by simp [partsText]
  | p :: ps, acc, h => by
    have ih := fun acc => scan_parts L r ps acc fun q hq => h q (List.mem_cons_of_mem _ hq)
    have hp := h p List.mem_cons_self
    have hc : partsText (p :: ps) = partText p ++ partsText ps := by simp [partsText]
    rw [hc, List.append_assoc]
    cases p with
    | chr c =>
      simp only [PlainPart, List.mem_cons, List.not_mem_nil, or_false, not_or] at hp
      simp only [partText, List.cons_append, List.nil_append]
      rw [scanWord.eq_def]
      simp [hp, ih]
    | esc c =>
      simp only [partText, List.cons_append, List.nil_append]
      rw [scanWord.eq_def]
      simp [ih]
    | keep c =>
      simp only [partText, List.cons_append, List.nil_append]
      rw [scanWord.eq_def]
      simp [ih]
    | var x => exact absurd hp (by simp [PlainPart])

theorem delim_punct {L : Locale} (hL : L.Ok) : isTokenDelimiter L '\'' = false ∧ isTokenDelimiter L '\\' = false ∧
    isTokenDelimiter L '"' = false := by
  have h1 := hL.punct_blank '\'' (by decide)
  have h2 := hL.punct_blank '\\' (by decide)
  have h3 := hL.punct_blank '"' (by decide)
  simp [isTokenDelimiter, h1, h2, h3]

theorem scan_segs {L : Locale} (hL : L.Ok) (r : List Char) : ∀ (gs : List Seg) (acc : List Char), (∀ g ∈ gs, PlainSeg L g) →
    scanWord L false false acc (textOf gs ++ r) = scanWord L false false (acc ++ textOf gs) r
  | [], acc, _ => by simp [textOf]
  | g :: gs, acc, h => by
    have ih := fun acc => scan_segs hL r gs acc fun q hq => h q (List.mem_cons_of_mem _ hq)
    have hg := h g List.mem_cons_self
    have hc : textOf (g :: gs) = segText g ++ textOf gs := by simp [textOf]
    obtain ⟨d1, d2, d3⟩ := delim_punct hL
    rw [hc, List.append_assoc]
    cases g with
    | chr c =>
      simp only [PlainSeg, List.mem_cons, List.not_mem_nil, or_false, not_or] at hg
      simp only [segText, List.cons_append, List.nil_append]
      rw [scanWord.eq_def]
      simp [hg, ih, isTokenDelimiter]
    | bs c =>
      simp only [segText, List.cons_append, List.nil_append]
      rw [scanWord.eq_def]
      simp [d2, ih]
    | sq s =>
      simp only [segText, List.cons_append, List.append_assoc]
      rw [scanWord.eq_def]
      simp only [d1, List.nil_append]
      simp only [Bool.not_false, Bool.and_false, Bool.true_and, if_false, reduceCtorEq, if_true, Bool.false_eq_true]
      rw [if_neg (by decide), if_neg (by decide), if_pos (by decide), scan_sq L _ s _ hg, scanWord.eq_def]
      simp [ih]
    | dq ps =>
      have hpt : (ps.map partText).flatten = partsText ps := rfl
      simp only [segText, List.cons_append, List.append_assoc, hpt]
      rw [scanWord.eq_def]
      simp only [d3, List.nil_append]
      simp only [Bool.not_false, Bool.and_false, Bool.true_and, if_false, reduceCtorEq, if_true, Bool.false_eq_true]
      rw [if_neg (by decide), if_neg (by decide), if_neg (by decide), scan_parts L _ ps _ hg, scanWord.eq_def]
      simp [ih]

/-- The text of the word with a single quotation closed. -/
def closed (o : Open) (t : List Char) : List Char := if o = .single then t ++ ['\''] else t

/-- The last word. -/
theorem scan_last {L : Locale} (hL : L.Ok) {o : Open} {t v : List Char} (h : Typed L o t v) :
    scanWord L false false [] t = .last (closed o t) (match o with
      | .nothing => .normal
      | .backslash => .normalEscaped
      | .single => .single
      | .double => .double
      | .doubleBackslash => .doubleEscaped) := by
  have hs := typed_shape h
  obtain ⟨d1, d2, d3⟩ := delim_punct hL
  cases o with
  | nothing =>
    obtain ⟨gs, hg, rfl, -⟩ := hs
    have := scan_segs hL [] gs [] fun g hg' => (hg.1 g hg').1
    simp only [List.append_nil, List.nil_append] at this
    rw [this]; simp [scanWord, closed]
  | backslash =>
    obtain ⟨gs, hg, rfl, -⟩ := hs
    rw [scan_segs hL _ gs [] fun g hg' => (hg.1 g hg').1]
    simp [scanWord, closed, d2]
  | single =>
    obtain ⟨gs, s, hg, hs, rfl, -⟩ := hs
    rw [scan_segs hL _ gs [] fun g hg' => (hg.1 g hg').1, scanWord.eq_def]
    have := scan_sq L [] s ([] ++ textOf gs ++ ['\'']) hs
    simp only [List.append_nil] at this
    simp only [d1, Bool.false_eq_true, if_false, Bool.not_false, Bool.and_false]
    rw [if_neg (by decide), if_neg (by decide), if_pos (by decide), this]
    simp [scanWord, closed]
  | double =>
    obtain ⟨gs, ps, hg, hs, rfl, -⟩ := hs
    rw [scan_segs hL _ gs [] fun g hg' => (hg.1 g hg').1, scanWord.eq_def]
    have := scan_parts L [] ps ([] ++ textOf gs ++ ['"']) hs
    simp only [List.append_nil] at this
    simp only [d3, Bool.false_eq_true, if_false, Bool.not_false, Bool.and_false]
    rw [if_neg (by decide), if_neg (by decide), if_neg (by decide), if_pos (by decide), this]
    simp [scanWord, closed]
  | doubleBackslash =>
    obtain ⟨gs, ps, hg, hs, rfl, -⟩ := hs
    have hass : textOf gs ++ '"' :: partsText ps ++ ['\\'] = textOf gs ++ '"' :: (partsText ps ++ ['\\']) := by simp
    conv => lhs; rw [hass]
    rw [scan_segs hL _ gs [] fun g hg' => (hg.1 g hg').1, scanWord.eq_def]
    have := scan_parts L ['\\'] ps ([] ++ textOf gs ++ ['"']) hs
    simp only [d3, Bool.false_eq_true, if_false, Bool.not_false, Bool.and_false]
    rw [if_neg (by decide), if_neg (by decide), if_neg (by decide), if_pos (by decide), this]
    simp [scanWord, closed]

/-- A complete word. -/
theorem scan_complete {L : Locale} (hL : L.Ok) {t v : List Char} (h : Typed L .nothing t v) (c : Char) (r : List Char)
    (hc : isTokenDelimiter L c = true) : scanWord L false false [] (t ++ c :: r) = .word t (c :: r) := by
  obtain ⟨gs, hg, rfl, -⟩ := typed_shape h
  rw [scan_segs hL _ gs [] fun g hg' => (hg.1 g hg').1, scanWord.eq_def]
  simp [hc]

/-! ## What the word stands for -/

/-- The text that has been added so far stands for `v`. -/
structure Vis (st : St) (v : List Char) : Prop where
  fields : st.fields = []
  keep : st.removeempty = false
  dq : st.removedq = false
  value : quoteRemoval .none st.buf = v
  inert : ∀ c ∈ st.buf, Inert c

def opPlain : Op → List Char
  | .chr c => [c]
  | .bs c => [c]
  | .keep c => ['\\', c]
  | .sq s => s
  | .dquote => []
  | .var _ => []

/-- Ops of words without expansions and patterns. -/
def PlainOp (indq : Bool) : Op → Prop
  | .chr c => indq = false → c ≠ '{' ∧ c ≠ '*' ∧ c ≠ '?' ∧ c ≠ '[' ∧ c ≠ '\\'
  | .var _ => False
  | _ => True

theorem quoteRemoval_quoted (s : List Char) :
    quoteRemoval .none (s.map fun c => (c, ({ origin := .literal, quoted := true } : CC))) = s := by
  induction s with
  | nil => rfl
  | cons c s ih => simp [quoteRemoval, Expand.shouldEscape, ih]

theorem Vis.append {st : St} {v : List Char} (h : Vis st v) (w : CWord) (hw : ∀ c ∈ w, Inert c) (b : Bool) :
    Vis { st with buf := st.buf ++ w, indq := b } (v ++ quoteRemoval .none w) := by
  refine ⟨h.fields, h.keep, h.dq, ?_, ?_⟩
  · simp only [Expand.quoteRemoval_append, h.value]
  · intro c hc
    rcases List.mem_append.1 hc with hc | hc
    · exact h.inert c hc
    · exact hw c hc

theorem vis_op (val : Bool → List Char → List CWord) {st : St} {v : List Char} (h : Vis st v) (o : Op) (ho : PlainOp st.indq o) :
    Vis (opStep val st o) (v ++ opPlain o) := by
  cases o with
  | chr c =>
    have := h.append [(c, { origin := .literal, quoted := st.indq })] (by
      simp only [PlainOp] at ho
      simp only [List.mem_singleton, forall_eq, Inert]
      cases hq : st.indq <;> simp_all) st.indq
    simpa [opStep, St.add, opPlain, quoteRemoval, Expand.shouldEscape] using this
  | bs c =>
    have := h.append [('\\', { origin := .literal, quotation := true }), (c, { origin := .literal, quoted := true })]
      (by simp [Inert]) st.indq
    simpa [opStep, St.add, opPlain, quoteRemoval, Expand.shouldEscape] using this
  | keep c =>
    have := h.append [('\\', { origin := .literal, quoted := true }), (c, { origin := .literal, quoted := true })]
      (by simp [Inert]) st.indq
    simpa [opStep, St.add, opPlain, quoteRemoval, Expand.shouldEscape] using this
  | sq s =>
    have := h.append (('\'', { origin := .literal, quotation := true }) ::
        (s.map (fun c => (c, ({ origin := .literal, quoted := true } : CC))) ++ [('\'', { origin := .literal, quotation := true })]))
      (by
        intro c hc
        simp only [List.mem_cons, List.mem_append, List.mem_map, List.not_mem_nil, or_false] at hc
        rcases hc with rfl | ⟨a, _, rfl⟩ | rfl <;> simp [Inert]) st.indq
    simpa [opStep, St.add, St.addAll, opPlain, quoteRemoval, Expand.quoteRemoval_append, quoteRemoval_quoted] using this
  | dquote =>
    have := h.append [('"', { origin := .literal, quotation := true })] (by simp [Inert]) (!st.indq)
    simp only [opStep, St.dquote, h.dq, opPlain, CC.lit]
    cases hq : st.indq
    · have h2 : Vis { st with buf := st.buf ++ [('"', { origin := .literal, quotation := true })], indq := true } (v ++ []) := by
        simpa [hq, quoteRemoval] using this
      exact ⟨h2.fields, h2.keep, rfl, h2.value, h2.inert⟩
    · have h2 : Vis { st with buf := st.buf ++ [('"', { origin := .literal, quotation := true })], indq := false } (v ++ []) := by
        simpa [hq, quoteRemoval] using this
      exact ⟨h2.fields, h2.keep, rfl, h2.value, h2.inert⟩
  | var x => exact absurd ho (by simp [PlainOp])

/-- A pattern from which only escapes are to be removed. -/
theorem pattern_value : ∀ (w : CWord), (∀ c ∈ w, Inert c) →
    unescape (quoteRemoval .quotedHard w) = quoteRemoval .none w ∧ meetsBrace (quoteRemoval .quotedHard w) = false
  | [], _ => ⟨rfl, rfl⟩
  | (c, cc) :: w, h => by
    obtain ⟨ih1, ih2⟩ := pattern_value w fun c hc => h c (List.mem_cons_of_mem _ hc)
    have hc := h _ List.mem_cons_self
    simp only [quoteRemoval]
    split
    · exact ⟨ih1, ih2⟩
    · rename_i hq
      split
      · simp [unescape, meetsBrace, Expand.shouldEscape, ih1, ih2]
      · rename_i he
        simp only [Expand.shouldEscape, Inert] at he hc
        have hlit : c ≠ '{' ∧ c ≠ '\\' := by
          cases ho : cc.origin <;> simp_all
        constructor
        · rw [if_neg (by simp [Expand.shouldEscape]), unescape]
          · rw [ih1]
          · rintro h1; exact absurd h1 hlit.2
          · intro _ _ h1; exact absurd h1 hlit.2
        · rw [meetsBrace]
          · simp [hlit.1, ih2]
          · intro _ _ h1; exact absurd h1 hlit.2

section expand
variable {σ : Type} (E : Env σ) (s : σ)

theorem op_vis {st : St} {v : List Char} (h : Vis st v) (o : Op) (hv : Valid st.indq [o]) (ho : PlainOp st.indq o) (t : List Char)
    (ht : o.piece = .text t) : ∃ st', (∀ r, stringLoop E s .single .word .lit false st (t ++ r) =
      stringLoop E s .single .word .lit false st' r) ∧ Vis st' (v ++ opPlain o) ∧
      st'.indq = (opStep (fun _ _ => []) st o).indq :=
  ⟨opStep (fun _ _ => []) st o, fun r => Expand.stringLoop_op E s (fun _ _ => []) false st o [] hv t ht r,
    vis_op _ h o ho, rfl⟩

theorem parts_vis : ∀ (ps : List DPart) (st : St) (v : List Char), (∀ p ∈ ps, PlainPart p) → Vis st v → st.indq = true →
    ∃ st', (∀ r, stringLoop E s .single .word .lit false st (partsText ps ++ r) =
      stringLoop E s .single .word .lit false st' r) ∧ Vis st' (v ++ partsValue ps) ∧ st'.indq = true
  | [], st, v, _, h, hq => ⟨st, by simp [partsText], by simpa [partsValue] using h, hq⟩
  | p :: ps, st, v, hp, h, hq => by
    have h1 := hp p List.mem_cons_self
    have hstep : ∃ st', (∀ r, stringLoop E s .single .word .lit false st (partText p ++ r) =
        stringLoop E s .single .word .lit false st' r) ∧ Vis st' (v ++ partPlain p) ∧ st'.indq = true := by
      cases p with
      | chr c =>
        simp only [PlainPart, List.mem_cons, List.not_mem_nil, or_false, not_or] at h1
        obtain ⟨st', a, b, d⟩ := op_vis E s h (.chr c) (by simp [Valid, hq, h1]) (by simp [PlainOp, hq]) [c] rfl
        exact ⟨st', a, b, by rw [d]; exact hq⟩
      | esc c =>
        obtain ⟨st', a, b, d⟩ := op_vis E s h (.bs c) ⟨fun _ => h1, by rw [hq]; trivial⟩ trivial ['\\', c] rfl
        exact ⟨st', a, b, by rw [d]; exact hq⟩
      | keep c =>
        obtain ⟨st', a, b, d⟩ := op_vis E s h (.keep c) ⟨hq, h1.1, by rw [hq]; trivial⟩ trivial ['\\', c] rfl
        exact ⟨st', a, b, by rw [d]; exact hq⟩
      | var x => exact absurd h1 (by simp [PlainPart])
    obtain ⟨st', a, b, d⟩ := hstep
    obtain ⟨st2, a2, b2, d2⟩ := parts_vis ps st' _ (fun q hq => hp q (List.mem_cons_of_mem _ hq)) b d
    refine ⟨st2, ?_, ?_, d2⟩
    · intro r
      have : partsText (p :: ps) = partText p ++ partsText ps := by simp [partsText]
      rw [this, List.append_assoc, a, a2]
    · simpa [partsValue] using b2

theorem seg_vis {L : Locale} (g : Seg) (st : St) (v : List Char) (hg : PlainSeg L g) (hok : g.Ok) (h : Vis st v)
    (hq : st.indq = false) :
    ∃ st', (∀ r, stringLoop E s .single .word .lit false st (segText g ++ r) =
      stringLoop E s .single .word .lit false st' r) ∧ Vis st' (v ++ segPlain g) ∧ st'.indq = false := by
  cases g with
  | chr c =>
    simp only [Seg.Ok, List.mem_cons, List.not_mem_nil, or_false, not_or] at hok
    obtain ⟨st', a, b, d⟩ := op_vis E s h (.chr c) (by simp [Valid, hok]) (by simp [PlainOp, hok]) [c] rfl
    exact ⟨st', a, b, by rw [d]; exact hq⟩
  | bs c =>
    obtain ⟨st', a, b, d⟩ := op_vis E s h (.bs c) ⟨by simp [hq], by rw [hq]; trivial⟩ trivial ['\\', c] rfl
    exact ⟨st', a, b, by rw [d]; exact hq⟩
  | sq x =>
    obtain ⟨st', a, b, d⟩ := op_vis E s h (.sq x) ⟨hq, hok, by rw [hq]; trivial⟩ trivial _ rfl
    exact ⟨st', a, b, by rw [d]; exact hq⟩
  | dq ps =>
    obtain ⟨st1, a1, b1, d1⟩ := op_vis E s h .dquote (by simp [Valid]) trivial ['"'] rfl
    simp only [opStep, Expand.dquote_indq, hq, Bool.not_false] at d1
    obtain ⟨st2, a2, b2, d2⟩ := parts_vis E s ps st1 _ hg b1 d1
    obtain ⟨st3, a3, b3, d3⟩ := op_vis E s b2 .dquote (by simp [Valid]) trivial ['"'] rfl
    simp only [opStep, Expand.dquote_indq, d2, Bool.not_true] at d3
    refine ⟨st3, ?_, ?_, d3⟩
    · intro r
      have : segText (.dq ps) ++ r = ['"'] ++ (partsText ps ++ (['"'] ++ r)) := by simp [segText, partsText]
      rw [this, a1, a2, a3]
    · simpa [opPlain, segPlain, partsValue] using b3

theorem segs_vis {L : Locale} : ∀ (gs : List Seg) (st : St) (v : List Char), (∀ g ∈ gs, PlainSeg L g ∧ g.Ok) → Vis st v →
    st.indq = false → ∃ st', (∀ r, stringLoop E s .single .word .lit false st (textOf gs ++ r) =
      stringLoop E s .single .word .lit false st' r) ∧ Vis st' (v ++ valueOf gs) ∧ st'.indq = false
  | [], st, v, _, h, hq => ⟨st, by simp [textOf], by simpa [valueOf] using h, hq⟩
  | g :: gs, st, v, hp, h, hq => by
    obtain ⟨st', a, b, d⟩ := seg_vis E s g st v (hp g List.mem_cons_self).1 (hp g List.mem_cons_self).2 h hq
    obtain ⟨st2, a2, b2, d2⟩ := segs_vis gs st' _ (fun q hq => hp q (List.mem_cons_of_mem _ hq)) b d
    refine ⟨st2, ?_, ?_, d2⟩
    · intro r
      have : textOf (g :: gs) = segText g ++ textOf gs := by simp [textOf]
      rw [this, List.append_assoc, a, a2]
    · simpa [valueOf] using b2

theorem vis_start : Vis {} [] := ⟨rfl, rfl, rfl, rfl, by simp⟩

/-- The loop over the text of the word. -/
theorem loop_typed {o : Open} {t v : List Char} (h : Typed E.locale o t v) :
    ∃ st, stringLoop E s .single .word .lit false {} (closed o t) = some st ∧ Vis st v := by
  have hs := typed_shape h
  cases o with
  | nothing =>
    obtain ⟨gs, hg, rfl, rfl⟩ := hs
    obtain ⟨st, a, b, -⟩ := segs_vis E s gs {} [] hg.1 vis_start rfl
    have := a []
    exact ⟨st, by simpa [closed, stringLoop] using this, b⟩
  | backslash =>
    obtain ⟨gs, hg, rfl, rfl⟩ := hs
    obtain ⟨st, a, b, hq⟩ := segs_vis E s gs {} [] hg.1 vis_start rfl
    refine ⟨st.add '\\' { origin := .literal, quotation := true }, ?_, ?_⟩
    · simp only [closed, reduceCtorEq, if_false, a]
      rw [stringLoop.eq_def]
      simp [Expand.backslashQuotes, CC.lit]
    · have := b.append [('\\', { origin := .literal, quotation := true })] (by simp [Inert]) st.indq
      simpa [St.add, quoteRemoval] using this
  | single =>
    obtain ⟨gs, x, hg, hx, rfl, rfl⟩ := hs
    obtain ⟨st, a, b, hq⟩ := segs_vis E s gs {} [] hg.1 vis_start rfl
    obtain ⟨st', a', b', -⟩ := op_vis E s b (.sq x) ⟨hq, hx, by rw [hq]; trivial⟩ trivial _ rfl
    refine ⟨st', ?_, by simpa [opPlain] using b'⟩
    have h2 := a' []
    simp only [List.append_nil] at h2
    have : closed .single (textOf gs ++ '\'' :: x) = textOf gs ++ ('\'' :: x ++ ['\'']) := by simp [closed]
    rw [this, a, h2, stringLoop]
  | double =>
    obtain ⟨gs, ps, hg, hx, rfl, rfl⟩ := hs
    obtain ⟨st, a, b, hq⟩ := segs_vis E s gs {} [] hg.1 vis_start rfl
    obtain ⟨st1, a1, b1, d1⟩ := op_vis E s b .dquote (by simp [Valid]) trivial ['"'] rfl
    simp only [opStep, Expand.dquote_indq, hq, Bool.not_false] at d1
    obtain ⟨st2, a2, b2, d2⟩ := parts_vis E s ps st1 _ hx b1 d1
    refine ⟨st2, ?_, by simpa [opPlain] using b2⟩
    have : closed .double (textOf gs ++ '"' :: partsText ps) = textOf gs ++ (['"'] ++ (partsText ps ++ [])) := by simp [closed]
    rw [this, a, a1, a2, stringLoop]
  | doubleBackslash =>
    obtain ⟨gs, ps, hg, hx, rfl, rfl⟩ := hs
    obtain ⟨st, a, b, hq⟩ := segs_vis E s gs {} [] hg.1 vis_start rfl
    obtain ⟨st1, a1, b1, d1⟩ := op_vis E s b .dquote (by simp [Valid]) trivial ['"'] rfl
    simp only [opStep, Expand.dquote_indq, hq, Bool.not_false] at d1
    obtain ⟨st2, a2, b2, d2⟩ := parts_vis E s ps st1 _ hx b1 d1
    refine ⟨st2.add '\\' { origin := .literal, quotation := true }, ?_, ?_⟩
    · have : closed .doubleBackslash (textOf gs ++ '"' :: partsText ps ++ ['\\']) =
          textOf gs ++ (['"'] ++ (partsText ps ++ ['\\'])) := by simp [closed]
      rw [this, a, a1, a2, stringLoop.eq_def]
      simp [Expand.backslashQuotes, CC.lit]
    · have := b2.append [('\\', { origin := .literal, quotation := true })] (by simp [Inert]) st2.indq
      simpa [St.add, quoteRemoval, opPlain] using this

/-- No word that has been typed begins with a tilde. -/
theorem typed_tilde {L : Locale} {o : Open} {t v : List Char} (h : Typed L o t v) : t.head? ≠ some '~' ∧ (o ≠ .nothing → t ≠ []) := by
  have hap : ∀ (t : List Char) (c : Char), t ≠ [] → (t ++ [c]).head? = t.head? := by
    intro t c ht; cases t <;> simp_all
  induction h with
  | start => simp
  | char t v c _ _ _ h0 ih => cases t <;> simp_all
  | escaped t v c _ _ ih | inSingle t v c _ _ ih | inDouble t v c _ _ ih | escapedDouble t v c _ _ ih | keptDouble t v c _ _ _ ih =>
    rw [hap _ _ (ih.2 (by simp))]; exact ⟨ih.1, by simp⟩
  | closeSingle t v _ ih | closeDouble t v _ ih | doubleBackslash t v _ ih =>
    rw [hap _ _ (ih.2 (by simp))]; exact ⟨ih.1, by simp⟩
  | backslash t v _ ih | openSingle t v _ ih | openDouble t v _ ih => cases t <;> simp_all

theorem expand_typed {o : Open} {t v : List Char} (h : Typed E.locale o t v) :
    ∃ p, expandSingle E .single .word .quotedHard [.str (closed o t)] s = .ok s p ∧ unescape p = v ∧ meetsBrace p = false ∧
      Fnmatch.isPathnameMatchingPattern [] p = false := by
  obtain ⟨st, h1, hv⟩ := loop_typed E s h
  have ht : (closed o t).head? ≠ some '~' := by
    have h2 := typed_tilde h
    unfold closed
    split
    · rename_i ho
      have h3 := h2.2 (by simp [ho])
      cases t <;> simp_all
    · exact h2.1
  have htil : Expand.expandTilde E s .single false (closed o t) = none := by
    generalize closed o t = x at ht
    unfold Expand.expandTilde
    split
    · simp at ht
    · rfl
  refine ⟨quoteRemoval .quotedHard st.buf, ?_, ?_, (pattern_value _ hv.inert).2, ?_⟩
  · simp only [expandSingle, Expand.expandUnits, Expand.expandUnit, bind, Expand.M.bind, Expand.expandString]
    simp only [List.isEmpty_nil, Bool.not_true, htil, ite_self, h1, Expand.M.check, Expand.M.pure, pure, Expand.single, St.finish,
      hv.fields, hv.keep]
    simp [Expand.joinFields]
  · rw [(pattern_value _ hv.inert).1, hv.value]
  · exact (Expand.escaped_quoteRemoval _ hv.inert).not_pathname [] .nil

end expand

end Yash.Complete
