import Verif.Expand.WordSpec
import Verif.Expand.FourLemmas
import Verif.Expand.QuoteProps
/-!
# Expansion of quoted words: lemmas
-/
set_option autoImplicit false

namespace Yash.Expand

open Spec (glue Piece Spells DPart Seg simpleParam)
open Syntax (Word WordUnit Param)

/-! ## glue -/

section glue
variable {α β : Type}

theorem glue_nil_right : ∀ (a : List (List α)), glue a [] = a
  | [] => rfl
  | [_] => rfl
  | a :: b :: l => by simp only [glue]; rw [glue_nil_right (b :: l)]

theorem glue_cons (a : List α) (l r : List (List α)) (h : l ≠ []) : glue (a :: l) r = a :: glue l r := by
  cases l with
  | nil => exact absurd rfl h
  | cons b l => rfl

theorem glue_ne_nil : ∀ (a b : List (List α)), a ≠ [] ∨ b ≠ [] → glue a b ≠ []
  | [], b, h => by
    rcases h with h | h
    · exact absurd rfl h
    · simpa [glue] using h
  | [a], [], _ => by simp [glue]
  | [a], f :: fs, _ => by simp [glue]
  | a :: b :: l, r, _ => by simp [glue]

theorem glue_assoc : ∀ (a b c : List (List α)), glue (glue a b) c = glue a (glue b c)
  | [], b, c => by simp [glue]
  | [a], [], c => by simp [glue]
  | [a], [f], [] => by simp [glue]
  | [a], [f], g :: gs => by simp [glue]
  | [a], f :: f' :: fs, c => by simp [glue]
  | a :: b :: l, r, c => by
    simp only [glue]
    rw [glue_cons _ _ _ (glue_ne_nil _ _ (Or.inl (by simp))), glue_assoc (b :: l) r c]

theorem glue_map (f : List α → List β) (hf : ∀ x y, f (x ++ y) = f x ++ f y) :
    ∀ (a b : List (List α)), (glue a b).map f = glue (a.map f) (b.map f)
  | [], b => by simp [glue]
  | [a], [] => by simp [glue]
  | [a], g :: gs => by simp [glue, hf]
  | a :: b :: l, r => by
    have := glue_map f hf (b :: l) r
    simp only [glue, List.map_cons] at this ⊢
    rw [this]

theorem glue_mem (P : α → Prop) : ∀ (a b : List (List α)), (∀ x ∈ a, ∀ c ∈ x, P c) → (∀ x ∈ b, ∀ c ∈ x, P c) →
    ∀ x ∈ glue a b, ∀ c ∈ x, P c
  | [], b, _, hb => by simpa [glue] using hb
  | [a], [], ha, _ => by simpa [glue] using ha
  | [a], f :: fs, ha, hb => by
    intro x hx c hc
    simp only [glue, List.mem_cons] at hx
    rcases hx with rfl | hx
    · rcases List.mem_append.1 hc with hc | hc
      · exact ha a (by simp) c hc
      · exact hb f (by simp) c hc
    · exact hb x (by simp [hx]) c hc
  | a :: b :: l, r, ha, hb => by
    intro x hx c hc
    simp only [glue, List.mem_cons] at hx
    rcases hx with rfl | hx
    · exact ha _ (by simp) c hc
    · exact glue_mem P (b :: l) r (fun x hx => ha x (List.mem_cons_of_mem _ hx)) hb x hx c hc

/-- Joining keeps every field nonempty. -/
theorem glue_nonempty : ∀ (a b : List (List α)), (∀ x ∈ a, x ≠ []) → (∀ x ∈ b, x ≠ []) → ∀ x ∈ glue a b, x ≠ []
  | [], b, _, hb => by simpa [glue] using hb
  | [a], [], ha, _ => by simpa [glue] using ha
  | [a], f :: fs, ha, hb => by
    intro x hx
    simp only [glue, List.mem_cons] at hx
    rcases hx with rfl | hx
    · have := ha a (by simp)
      simp [this]
    · exact hb x (by simp [hx])
  | a :: b :: l, r, ha, hb => by
    intro x hx
    simp only [glue, List.mem_cons] at hx
    rcases hx with rfl | hx
    · exact ha _ (by simp)
    · exact glue_nonempty (b :: l) r (fun x hx => ha x (List.mem_cons_of_mem _ hx)) hb x hx

theorem glue_append_last (l : List (List α)) (x : List α) (r : List (List α)) :
    glue (l ++ [x]) r = l ++ glue [x] r := by
  induction l with
  | nil => rfl
  | cons a l ih =>
    rw [List.cons_append, glue_cons _ _ _ (by simp), ih]; rfl

end glue

theorem quoteRemoval_append (e : Escaping) : ∀ (x y : CWord), quoteRemoval e (x ++ y) = quoteRemoval e x ++ quoteRemoval e y
  | [], y => rfl
  | (c, cc) :: x, y => by
    simp only [List.cons_append, quoteRemoval, quoteRemoval_append e x y]
    split
    · rfl
    · split <;> rfl

/-! ## States -/

/-- The fields so far. -/
def St.all (st : St) : List CWord := st.fields ++ [st.buf]

theorem St.all_add (st : St) (c : Char) (cc : CC) : (st.add c cc).all = glue st.all [[(c, cc)]] := by
  simp only [St.all, St.add, glue_append_last, glue]

theorem St.all_addAll (st : St) (s : List Char) (cc : CC) :
    (st.addAll s cc).all = glue st.all [s.map fun c => (c, cc)] := by
  simp only [St.all, St.addAll, glue_append_last, glue]

theorem St.all_merge (st : St) (vs : List CWord) : (st.merge vs).all = glue st.all vs := by
  unfold St.merge
  split
  · rw [glue_nil_right]
  · simp only [St.all, glue_append_last, glue]
  · rename_i v w ws
    simp only [St.all, glue_append_last, glue, List.append_assoc, List.cons_append, List.append_cancel_left_eq]
    rw [List.dropLast_concat_getLast]

@[simp] theorem St.merge_indq (st : St) (vs : List CWord) : (st.merge vs).indq = st.indq := by
  unfold St.merge; split <;> rfl

@[simp] theorem St.merge_removedq (st : St) (vs : List CWord) : (st.merge vs).removedq = st.removedq := by
  unfold St.merge; split <;> rfl

@[simp] theorem St.add_indq (st : St) (c : Char) (cc : CC) : (st.add c cc).indq = st.indq := rfl
@[simp] theorem St.addAll_indq (st : St) (s : List Char) (cc : CC) : (st.addAll s cc).indq = st.indq := rfl
@[simp] theorem St.add_removedq (st : St) (c : Char) (cc : CC) : (st.add c cc).removedq = st.removedq := rfl
@[simp] theorem St.addAll_removedq (st : St) (s : List Char) (cc : CC) : (st.addAll s cc).removedq = st.removedq := rfl

/-! ## Operations -/

/-- The elements of a quoted word, without the nesting of double quotes. -/
inductive Op where
  | chr (c : Char)
  | bs (c : Char)
  | keep (c : Char)
  | sq (s : List Char)
  | dquote
  | var (x : List Char)

def Op.piece : Op → Piece
  | .chr c => .text [c]
  | .bs c => .text ['\\', c]
  | .keep c => .text ['\\', c]
  | .sq s => .text ('\'' :: s ++ ['\''])
  | .dquote => .text ['"']
  | .var x => .unit (.param (simpleParam x))

/-- Whether the elements make sense inside or outside double quotes. -/
def Valid : Bool → List Op → Prop
  | _, [] => True
  | indq, .chr c :: r => c ≠ '"' ∧ c ≠ '\\' ∧ (indq = false → c ≠ '\'') ∧ Valid indq r
  | indq, .bs c :: r => (indq = true → Spec.dqSpecial c) ∧ Valid indq r
  | indq, .keep c :: r => indq = true ∧ ¬ Spec.dqSpecial c ∧ Valid indq r
  | indq, .sq s :: r => indq = false ∧ '\'' ∉ s ∧ Valid indq r
  | indq, .dquote :: r => Valid (!indq) r
  | indq, .var _ :: r => Valid indq r

/-- The effect of an element. -/
def opStep (val : Bool → List Char → List CWord) (st : St) : Op → St
  | .chr c => st.add c { origin := .literal, quoted := st.indq }
  | .bs c => (st.add '\\' { origin := .literal, quotation := true }).add c { origin := .literal, quoted := true }
  | .keep c => (st.add '\\' { origin := .literal, quoted := true }).add c { origin := .literal, quoted := true }
  | .sq s => ((st.add '\'' { origin := .literal, quotation := true }).addAll s { origin := .literal, quoted := true }).add
      '\'' { origin := .literal, quotation := true }
  | .dquote => st.dquote .lit
  | .var x => (st.noFields (val st.indq x)).merge (val st.indq x)

theorem noFields_indq (st : St) (vs : List CWord) : (st.noFields vs).indq = st.indq := by
  unfold St.noFields; split
  · split <;> rfl
  · rfl

theorem dquote_indq (st : St) (cc : CC) : (st.dquote cc).indq = !st.indq := by
  unfold St.dquote
  cases st.indq with
  | true => simp only [if_true]; split <;> split <;> rfl
  | false => rfl

theorem opStep_valid (val : Bool → List Char → List CWord) (st : St) (o : Op) (r : List Op)
    (h : Valid st.indq (o :: r)) : Valid (opStep val st o).indq r := by
  cases o <;> simp only [opStep, Valid, St.add_indq, St.addAll_indq, dquote_indq, St.merge_indq, noFields_indq] at h ⊢
  · exact h.2.2.2
  · exact h.2
  · exact h.2.2
  · exact h.2.2
  · exact h
  · exact h

section loop
variable {σ : Type} (E : Env σ) (s : σ) (val : Bool → List Char → List CWord) (hn : Bool)

/-- One element of a string unit. -/
theorem stringLoop_op (st : St) (o : Op) (ops : List Op) (h : Valid st.indq (o :: ops)) (t : List Char)
    (ho : o.piece = .text t) (r : List Char) :
    stringLoop E s .single .word .lit hn st (t ++ r) = stringLoop E s .single .word .lit hn (opStep val st o) r := by
  cases o with
  | chr c =>
    simp only [Op.piece, Piece.text.injEq] at ho
    subst ho
    simp only [Valid] at h
    rw [List.cons_append, stringLoop.eq_def]
    simp only [h.1, h.2.1]
    have : (decide (c = '\'') && !st.indq) = false := by
      cases hq : st.indq with
      | true => simp
      | false => simpa using h.2.2.1 hq
    simp [this, opStep]
  | bs c =>
    simp only [Op.piece, Piece.text.injEq] at ho
    subst ho
    simp only [Valid] at h
    rw [List.cons_append, stringLoop.eq_def]
    have hb : backslashQuotes .word st.indq (some c) = true := by
      cases hq : st.indq with
      | false => simp [backslashQuotes]
      | true =>
        have := h.1 hq
        simp only [Spec.dqSpecial] at this
        simp [backslashQuotes, this]
        rcases this with h | h | h | h <;> simp [h]
    simp [hb, opStep]
  | keep c =>
    simp only [Op.piece, Piece.text.injEq] at ho
    subst ho
    simp only [Valid, Spec.dqSpecial, not_or] at h
    obtain ⟨h0, ⟨h1, h2, h3, h4⟩, _⟩ := h
    rw [List.cons_append, stringLoop.eq_def]
    have hb : backslashQuotes .word st.indq (some c) = false := by simp [backslashQuotes, h0, h1, h2, h3, h4]
    simp [hb]
    rw [stringLoop.eq_def]
    simp [h0, h3, h4, opStep, h0]
  | sq a =>
    simp only [Op.piece, Piece.text.injEq] at ho
    subst ho
    simp only [Valid] at h
    rw [List.cons_append, List.cons_append, stringLoop.eq_def]
    simp only [h.1]
    simp only [reduceCtorEq, decide_true, decide_false, Bool.and_true, Bool.true_and, Bool.not_false, if_true, Bool.or_false]
    rw [if_neg (by decide)]
    split
    · rename_i heq
      rw [List.append_assoc, List.cons_append, List.nil_append, addSq_append a r h.2.1] at heq
      simp at heq
    · rename_i heq
      rw [List.append_assoc, List.cons_append, List.nil_append, addSq_append a r h.2.1] at heq
      simp only [Prod.mk.injEq, List.cons.injEq] at heq
      obtain ⟨rfl, _, rfl⟩ := heq
      rfl
  | dquote =>
    simp only [Op.piece, Piece.text.injEq] at ho
    subst ho
    rw [List.cons_append, stringLoop.eq_def]
    simp [opStep]
  | var x => simp [Op.piece] at ho

/-- A string unit. -/
theorem stringLoop_ops : ∀ (ops : List Op) (ts : List (List Char)) (st : St), Valid st.indq ops →
    ops.map Op.piece = ts.map Piece.text →
    stringLoop E s .single .word .lit hn st ts.flatten = some (ops.foldl (opStep val) st)
  | [], ts, st, _, h => by
    cases ts with
    | nil => simp [stringLoop]
    | cons => simp at h
  | o :: ops, ts, st, hv, h => by
    cases ts with
    | nil => simp at h
    | cons t ts =>
      simp only [List.map_cons, List.cons.injEq] at h
      rw [List.flatten_cons, stringLoop_op E s val hn st o ops hv t h.1, List.foldl_cons]
      exact stringLoop_ops ops ts _ (opStep_valid val st o ops hv) h.2

theorem valid_append {val : Bool → List Char → List CWord} : ∀ (a b : List Op) (st : St), Valid st.indq (a ++ b) →
    Valid st.indq a ∧ Valid (a.foldl (opStep val) st).indq b
  | [], b, st, h => ⟨by cases st.indq <;> trivial, h⟩
  | o :: a, b, st, h => by
    obtain ⟨h1, h2⟩ := valid_append a b _ (opStep_valid val st o _ h)
    refine ⟨?_, h2⟩
    cases o <;> simp only [opStep, Valid, List.cons_append, St.add_indq, St.addAll_indq, dquote_indq, St.merge_indq,
      noFields_indq] at h h1 ⊢
    · exact ⟨h.1, h.2.1, h.2.2.1, h1⟩
    · exact ⟨h.1, h1⟩
    · exact ⟨h.1, h.2.1, h1⟩
    · exact ⟨h.1, h.2.1, h1⟩
    · exact h1
    · exact h1

/-- A word made of these elements. -/
theorem expandUnits_ops (ps : List Piece) (w : Word) (hw : Spells ps w) :
    ∀ (ops : List Op) (st : St) (first : Bool), ops.map Op.piece = ps → Valid st.indq ops →
      (first = true → ∀ t, ps.head? ≠ some (.text ('~' :: t))) →
      (∀ x, Op.var x ∈ ops → ∀ indq, expandParam E indq (simpleParam x) s = .ok s (val indq x)) →
      expandUnits E .single .word .lit first st w s = .ok s (ops.foldl (opStep val) st) := by
  induction hw with
  | nil =>
    intro ops st first h _ _ _
    rw [List.map_eq_nil_iff.1 h]
    rfl
  | unit u ps w hw ih =>
    intro ops st first h hv hf hvar
    cases ops with
    | nil => simp at h
    | cons o ops =>
      simp only [List.map_cons, List.cons.injEq] at h
      cases o <;> simp only [Op.piece, Piece.unit.injEq] at h <;> try (exact absurd h.1 (by simp))
      rename_i x
      obtain ⟨rfl, h⟩ := h
      rw [expandUnits]
      simp only [bind, M.bind, expandUnit]
      have hp := hvar x List.mem_cons_self (st.indq || decide (Quoting.word = .literal) || CC.lit.quoted)
      rw [hp]
      simp only [pure, M.pure]
      have hq : (st.indq || decide (Quoting.word = .literal) || CC.lit.quoted) = st.indq := by simp [CC.lit]
      rw [hq]
      have := ih ops (opStep val st (.var x)) false h (opStep_valid val st _ _ hv) (by simp)
        (fun y hy => hvar y (List.mem_cons_of_mem _ hy))
      rw [List.foldl_cons]
      exact this
  | str ts ps w hw ih =>
    intro ops st first h hv hf hvar
    obtain ⟨a, b, rfl, ha, hb⟩ := List.map_eq_append_iff.1 h
    obtain ⟨hva, hvb⟩ := valid_append (val := val) a b st hv
    rw [expandUnits]
    simp only [bind, M.bind, expandUnit]
    have hs : ∀ n, expandString E s .single .word .lit first n st ts.flatten = some (a.foldl (opStep val) st) := by
      intro n
      unfold expandString
      have ht : (if first && Tilde.single != .none then expandTilde E s .single n ts.flatten else none) = none := by
        split
        · rename_i hfirst
          simp only [Bool.and_eq_true] at hfirst
          have := hf hfirst.1
          cases ts with
          | nil => rfl
          | cons t ts =>
            cases t with
            | nil =>
              cases a with
              | nil => simp at ha
              | cons o a =>
                simp only [List.map_cons, List.cons.injEq] at ha
                cases o <;> simp [Op.piece] at ha
            | cons c t =>
              simp only [List.flatten_cons, List.cons_append]
              rw [expandTilde]
              intro w hc
              simp only [List.cons.injEq] at hc
              have := this t
              simp [hc.1] at this
        · rfl
      rw [ht]
      exact stringLoop_ops E s val n a ts st hva ha
    rw [hs]
    simp only [M.check, pure, M.pure]
    rw [List.foldl_append]
    exact ih b _ false hb hvb (by simp) (fun y hy => hvar y (List.mem_append_right _ hy))

end loop

/-! ## Segments -/

section seg

theorem glue_unit {α : Type} (a : List (List α)) (h : a ≠ []) : glue a [[]] = a := by
  rw [← List.dropLast_concat_getLast h, glue_append_last]
  simp [glue]

theorem unit_glue {α : Type} (a : List (List α)) (h : a ≠ []) : glue [[]] a = a := by
  cases a with
  | nil => exact absurd rfl h
  | cons => simp [glue]

/-- Joining keeps fields nonempty if only the first field of the second list is empty. -/
theorem glue_nonempty' {α : Type} : ∀ (a b : List (List α)), (∀ x ∈ a, x ≠ []) → (∀ x ∈ b.tail, x ≠ []) → a ≠ [] →
    ∀ x ∈ glue a b, x ≠ []
  | [], b, _, _, h => absurd rfl h
  | [a], [], ha, _, _ => by simpa [glue] using ha
  | [a], f :: fs, ha, hb, _ => by
    intro x hx
    simp only [glue, List.mem_cons] at hx
    rcases hx with rfl | hx
    · have := ha a (by simp)
      simp [this]
    · exact hb x (by simpa using hx)
  | a :: b :: l, r, ha, hb, _ => by
    intro x hx
    simp only [glue, List.mem_cons] at hx
    rcases hx with rfl | hx
    · exact ha _ (by simp)
    · exact glue_nonempty' (b :: l) r (fun x hx => ha x (List.mem_cons_of_mem _ hx)) hb (by simp) x hx

theorem glue_tail {α : Type} : ∀ (a b : List (List α)), (a.length > 1 → ∀ x ∈ a, x ≠ []) → (∀ x ∈ b.tail, x ≠ []) →
    ∀ x ∈ (glue a b).tail, x ≠ []
  | [], b, _, hb => by simpa [glue] using hb
  | [a], [], _, _ => by simp [glue]
  | [a], f :: fs, _, hb => by simpa [glue] using hb
  | a :: b :: l, r, ha, hb => by
    simp only [glue, List.tail_cons]
    exact glue_nonempty' (b :: l) r (fun x hx => ha (by simp) x (List.mem_cons_of_mem _ hx)) hb (by simp)

theorem glue_nonempty_tail {α : Type} (a : List (List α)) (x : List α) (h : ∀ y ∈ a.tail, y ≠ []) :
    ∀ y ∈ (glue a [x]).tail, y ≠ [] := by
  match a with
  | [] => simp [glue]
  | [a] => simp [glue]
  | a :: b :: l =>
    simp only [glue, List.tail_cons] at h ⊢
    exact glue_nonempty' (b :: l) [x] h (by simp) (by simp)

variable (val : List Char → List (List Char)) (vals : Bool → List Char → List CWord)

def dop : DPart → Op
  | .chr c => .chr c
  | .esc c => .bs c
  | .keep c => .keep c
  | .var x => .var x

def segOps : Seg → List Op
  | .chr c => [.chr c]
  | .sq s => [.sq s]
  | .bs c => [.bs c]
  | .dq ps => .dquote :: ps.map dop ++ [.dquote]

theorem dop_piece (p : DPart) : (dop p).piece = p.piece := by cases p <;> rfl

theorem segOps_pieces (g : Seg) : (segOps g).map Op.piece = g.pieces := by
  cases g with
  | dq ps =>
    simp only [segOps, Seg.pieces, List.map_append, List.map_cons, List.map_nil, List.map_map]
    congr 2
    apply List.map_congr_left
    intro p _
    exact dop_piece p
  | _ => rfl

theorem valid_parts (r : List Op) (hr : Valid true r) : ∀ (ps : List DPart), (∀ p ∈ ps, p.Ok) → Valid true (ps.map dop ++ r)
  | [], _ => hr
  | p :: ps, h => by
    have ih := valid_parts r hr ps (fun p hp => h p (List.mem_cons_of_mem _ hp))
    have hp := h p List.mem_cons_self
    cases p <;> simp only [List.map_cons, List.cons_append, dop, Valid, DPart.Ok] at hp ⊢
    · exact ⟨hp.1, hp.2, by simp, ih⟩
    · exact ⟨fun _ => hp, ih⟩
    · exact ⟨trivial, hp, ih⟩
    · exact ih

theorem valid_segs : ∀ (gs : List Seg), (∀ g ∈ gs, g.Ok) → Valid false (gs.flatMap segOps)
  | [], _ => trivial
  | g :: gs, h => by
    have ih := valid_segs gs (fun g hg => h g (List.mem_cons_of_mem _ hg))
    have hg := h g List.mem_cons_self
    cases g with
    | chr c =>
      simp only [Seg.Ok, List.mem_cons, not_or] at hg
      exact ⟨hg.1, hg.2.2.1, fun _ => hg.2.1, ih⟩
    | sq s => exact ⟨rfl, hg, ih⟩
    | bs c => exact ⟨by simp, ih⟩
    | dq ps =>
      simp only [List.flatMap_cons, segOps, List.cons_append, List.append_assoc, List.nil_append, Valid]
      exact valid_parts (.dquote :: gs.flatMap segOps) ih ps hg

/-- The characters that a part adds. -/
def dpartC : DPart → List CWord
  | .chr c => [[(c, { origin := .literal, quoted := true })]]
  | .esc c => [[('\\', { origin := .literal, quotation := true }), (c, { origin := .literal, quoted := true })]]
  | .keep c => [[('\\', { origin := .literal, quoted := true }), (c, { origin := .literal, quoted := true })]]
  | .var x => vals true x

def contentC (ps : List DPart) : List CWord := ps.foldr (fun p r => glue (dpartC vals p) r) [[]]

theorem contentC_ne_nil (ps : List DPart) : contentC vals ps ≠ [] := by
  induction ps with
  | nil => simp [contentC]
  | cons p ps ih => exact glue_ne_nil _ _ (Or.inr ih)

theorem content_ne_nil (ps : List DPart) : Spec.content val ps ≠ [] := by
  induction ps with
  | nil => simp [Spec.content]
  | cons p ps ih => exact glue_ne_nil _ _ (Or.inr ih)

theorem merge_removeempty (st : St) (vs : List CWord) : (st.merge vs).removeempty = st.removeempty := by
  unfold St.merge; split <;> rfl

theorem St.all_noFields (st : St) (vs : List CWord) : (st.noFields vs).all = st.all := by
  unfold St.noFields; split
  · split <;> rfl
  · rfl

/-- The effect of the contents of double quotes. -/
theorem parts_fold : ∀ (ps : List DPart) (st : St), st.indq = true →
    ((ps.map dop).foldl (opStep vals) st).all = glue st.all (contentC vals ps) ∧
    ((ps.map dop).foldl (opStep vals) st).indq = true ∧
    ((ps.map dop).foldl (opStep vals) st).removedq =
      (st.removedq || (ps.flatMap DPart.vars).any fun x => (vals true x).isEmpty)
  | [], st, h => by
    refine ⟨?_, h, by simp⟩
    exact (glue_unit _ (by simp [St.all])).symm
  | p :: ps, st, h => by
    have step : (opStep vals st (dop p)).all = glue st.all (dpartC vals p) ∧ (opStep vals st (dop p)).indq = true ∧
        (opStep vals st (dop p)).removedq = (st.removedq || (DPart.vars p).any fun x => (vals true x).isEmpty) := by
      cases p with
      | chr c => exact ⟨by simp only [dop, opStep, St.all_add, h, dpartC], h, by simp [dop, opStep, DPart.vars]⟩
      | esc c =>
        refine ⟨?_, h, by simp [dop, opStep, DPart.vars]⟩
        simp only [dop, opStep, St.all_add, glue_assoc, dpartC]; rfl
      | keep c =>
        refine ⟨?_, h, by simp [dop, opStep, DPart.vars]⟩
        simp only [dop, opStep, St.all_add, glue_assoc, dpartC]; rfl
      | var x =>
        refine ⟨?_, ?_, ?_⟩
        · simp only [dop, opStep, St.all_merge, St.all_noFields, h, dpartC]
        · simp only [dop, opStep, St.merge_indq, noFields_indq, h]
        · simp only [dop, opStep, St.merge_removedq, h, DPart.vars, St.noFields]
          cases hv : (vals true x).isEmpty <;> simp [hv]
    obtain ⟨h1, h2, h3⟩ := step
    obtain ⟨i1, i2, i3⟩ := parts_fold ps (opStep vals st (dop p)) h2
    simp only [List.map_cons, List.foldl_cons]
    refine ⟨?_, i2, ?_⟩
    · rw [i1, h1, glue_assoc]; rfl
    · rw [i3, h3]
      simp [Bool.or_assoc]

/-- What is required of the values. -/
structure Vals (xs : List (List Char)) : Prop where
  text : ∀ x ∈ xs, (vals true x).map (quoteRemoval .none) = val x
  inert : ∀ x ∈ xs, ∀ w ∈ vals true x, ∀ c ∈ w, Inert c
  many : ∀ x ∈ xs, (vals true x).length > 1 → ∀ w ∈ vals true x, w ≠ []
  one : ∀ x ∈ xs, ∀ w, vals true x = [w] → quoteRemoval .none w = [] → w = []

variable {val vals}

theorem Vals.mono {xs ys : List (List Char)} (h : Vals val vals xs) (hy : ∀ y ∈ ys, y ∈ xs) : Vals val vals ys :=
  ⟨fun x hx => h.text x (hy x hx), fun x hx => h.inert x (hy x hx), fun x hx => h.many x (hy x hx),
    fun x hx => h.one x (hy x hx)⟩

theorem quoteRemoval_quoted (c : Char) : quoteRemoval .none [(c, { origin := .literal, quoted := true })] = [c] := rfl

theorem content_text : ∀ (ps : List DPart), Vals val vals (ps.flatMap DPart.vars) →
    (contentC vals ps).map (quoteRemoval .none) = Spec.content val ps
  | [], _ => rfl
  | p :: ps, h => by
    have ih := content_text ps (h.mono fun y hy => by simp [hy])
    simp only [contentC, Spec.content, List.foldr_cons] at ih ⊢
    rw [glue_map _ (quoteRemoval_append _), ih]
    congr 1
    cases p with
    | var x => exact h.text x (by simp [DPart.vars])
    | _ => rfl

theorem content_inert : ∀ (ps : List DPart), Vals val vals (ps.flatMap DPart.vars) →
    ∀ w ∈ contentC vals ps, ∀ c ∈ w, Inert c
  | [], _ => by simp [contentC]
  | p :: ps, h => by
    have ih := content_inert ps (h.mono fun y hy => by simp [hy])
    refine glue_mem Inert _ _ ?_ ih
    cases p with
    | var x => exact h.inert x (by simp [DPart.vars])
    | chr c =>
      intro w hw c hc
      simp only [dpartC, List.mem_cons, List.not_mem_nil, or_false] at hw
      subst hw
      simp only [List.mem_cons, List.not_mem_nil, or_false] at hc
      subst hc
      simp [Inert]
    | _ =>
      intro w hw c hc
      simp only [dpartC, List.mem_cons, List.not_mem_nil, or_false] at hw
      subst hw
      simp only [List.mem_cons, List.not_mem_nil, or_false] at hc
      rcases hc with rfl | rfl <;> simp [Inert]

theorem content_tail : ∀ (ps : List DPart), Vals val vals (ps.flatMap DPart.vars) →
    ∀ w ∈ (contentC vals ps).tail, w ≠ []
  | [], _ => by simp [contentC]
  | p :: ps, h => by
    have ih := content_tail ps (h.mono fun y hy => by simp [hy])
    refine glue_tail _ _ ?_ ih
    cases p with
    | var x => exact h.many x (by simp [DPart.vars])
    | _ => simp [dpartC]

theorem glue_eq_single {α : Type} (a b : List (List α)) (x : List α) (hb : b ≠ []) (h : glue a b = [x]) :
    (a = [] ∧ b = [x]) ∨ ∃ y z, a = [y] ∧ b = [z] ∧ x = y ++ z := by
  match a, b, h with
  | [], b, h => exact Or.inl ⟨rfl, h⟩
  | [a], [], _ => exact absurd rfl hb
  | [a], f :: fs, h =>
    simp only [glue, List.cons.injEq] at h
    exact Or.inr ⟨a, f, rfl, by rw [h.2], h.1.symm⟩
  | a :: b :: l, r, h =>
    simp only [glue, List.cons.injEq] at h
    exact absurd h.2 (glue_ne_nil _ _ (Or.inl (by simp)))

theorem content_empty : ∀ (ps : List DPart), Vals val vals (ps.flatMap DPart.vars) → ∀ w, contentC vals ps = [w] →
    quoteRemoval .none w = [] → w = []
  | [], _, w, hw, _ => by
    simp only [contentC, List.foldr_nil, List.cons.injEq] at hw
    exact hw.1.symm
  | p :: ps, h, w, hw, hq => by
    have ih := content_empty ps (h.mono fun y hy => by simp [hy])
    rcases glue_eq_single _ _ _ (contentC_ne_nil vals ps) hw with ⟨_, hb⟩ | ⟨y, z, ha, hb, rfl⟩
    · exact ih w hb hq
    · rw [quoteRemoval_append, List.append_eq_nil_iff] at hq
      rw [ih z hb hq.2]
      cases p with
      | var x => rw [h.one x (by simp [DPart.vars]) y ha hq.1]; rfl
      | _ =>
        simp only [dpartC, List.cons.injEq, and_true] at ha
        subst ha
        simp [quoteRemoval, shouldEscape] at hq

theorem contentC_unit (ps : List DPart) (h : Vals val vals (ps.flatMap DPart.vars)) :
    contentC vals ps = [[]] ↔ Spec.content val ps = [[]] := by
  rw [← content_text ps h]
  constructor
  · intro h; rw [h]; rfl
  · intro h'
    obtain ⟨w, hw, hq⟩ : ∃ w, contentC vals ps = [w] ∧ quoteRemoval .none w = [] := by
      match hc : contentC vals ps, h' with
      | [w], h' => exact ⟨w, rfl, by simpa using h'⟩
      | _ :: _ :: _, h' => simp at h'
    rw [hw, content_empty ps h w hw hq]

/-- The fields so far outside double quotes. -/
def St.cur (st : St) : List CWord := if st.fields = [] ∧ st.buf = [] then [] else st.all

theorem St.cur_of_buf (st : St) (h : st.buf ≠ []) : st.cur = st.all := by simp [St.cur, h]

theorem St.all_eq_glue_cur (st : St) (r : List CWord) (hr : r ≠ []) : glue st.all r = glue st.cur r := by
  unfold St.cur
  split
  · rename_i h
    simp only [St.all, h.1, h.2, List.nil_append]
    rw [unit_glue _ hr]; rfl
  · rfl

/-- What holds outside double quotes. -/
structure Good (st : St) : Prop where
  out : st.indq = false
  inert : ∀ w ∈ st.cur, ∀ c ∈ w, Inert c
  full : ∀ w ∈ st.cur, w ≠ []

theorem good_add (st st' : St) (hg : Good st) (x : CWord) (hx : x ≠ []) (hi : ∀ c ∈ x, Inert c)
    (ha : st'.all = glue st.all [x]) (hq : st'.indq = false) (hb : st'.buf ≠ []) :
    Good st' ∧ st'.cur = glue st.cur [x] := by
  have : st'.cur = glue st.cur [x] := by rw [St.cur_of_buf _ hb, ha, St.all_eq_glue_cur _ _ (by simp)]
  refine ⟨⟨hq, ?_, ?_⟩, this⟩
  · rw [this]
    exact glue_mem Inert _ _ hg.inert (by simpa using hi)
  · rw [this]
    exact glue_nonempty _ _ hg.full (by simpa using hx)

/-- The effect of a segment. -/
theorem seg_fold (g : Seg) (hok : g.Ok) (hv : Vals val vals g.vars) (st : St) (hg : Good st) :
    Good ((segOps g).foldl (opStep vals) st) ∧
    ((segOps g).foldl (opStep vals) st).cur.map (quoteRemoval .none) =
      glue (st.cur.map (quoteRemoval .none)) (g.fields val) := by
  cases g with
  | chr c =>
    simp only [segOps, List.foldl_cons, List.foldl_nil, opStep, hg.out]
    obtain ⟨h1, h2⟩ := good_add st (st.add c { origin := .literal, quoted := false }) hg [(c, { origin := .literal })]
      (by simp) (by
        simp only [Seg.Ok, List.mem_cons, List.not_mem_nil, or_false, not_or] at hok
        simp [Inert, hok]) (St.all_add _ _ _) hg.out (by simp [St.add])
    refine ⟨h1, ?_⟩
    rw [h2, glue_map _ (quoteRemoval_append _)]
    rfl
  | bs c =>
    simp only [segOps, List.foldl_cons, List.foldl_nil, opStep]
    obtain ⟨h1, h2⟩ := good_add st ((st.add '\\' { origin := .literal, quotation := true }).add c
        { origin := .literal, quoted := true }) hg [('\\', { origin := .literal, quotation := true }), (c, { origin := .literal, quoted := true })]
      (by simp) (by simp [Inert]) (by rw [St.all_add, St.all_add, glue_assoc]; rfl) hg.out (by simp [St.add])
    refine ⟨h1, ?_⟩
    rw [h2, glue_map _ (quoteRemoval_append _)]
    rfl
  | sq s =>
    simp only [segOps, List.foldl_cons, List.foldl_nil, opStep]
    obtain ⟨h1, h2⟩ := good_add st (((st.add '\'' { origin := .literal, quotation := true }).addAll s
        { origin := .literal, quoted := true }).add '\'' { origin := .literal, quotation := true }) hg
      (('\'', { origin := .literal, quotation := true }) :: s.map (fun c => (c, { origin := .literal, quoted := true })) ++
        [('\'', { origin := .literal, quotation := true })])
      (by simp) (by
        intro c hc
        simp only [List.cons_append, List.mem_cons, List.mem_append, List.mem_map, List.not_mem_nil, or_false] at hc
        rcases hc with rfl | ⟨a, _, rfl⟩ | rfl <;> simp [Inert])
      (by rw [St.all_add, St.all_addAll, St.all_add, glue_assoc, glue_assoc]; rfl) hg.out (by simp [St.add])
    refine ⟨h1, ?_⟩
    rw [h2, glue_map _ (quoteRemoval_append _)]
    congr 1
    simp only [List.map_cons, List.map_nil, List.cons_append, Seg.fields]
    rw [show ∀ (a : CChar) (l : CWord), a :: l = [a] ++ l from fun _ _ => rfl, quoteRemoval_append, quoteRemoval_append]
    have : ∀ s : List Char, quoteRemoval .none (s.map fun c => (c, ({ origin := .literal, quoted := true } : CC))) = s := by
      intro s
      induction s with
      | nil => rfl
      | cons c s ih => simp [quoteRemoval, shouldEscape, ih]
    rw [this]
    simp [quoteRemoval]
  | dq ps =>
    simp only [segOps, List.cons_append, List.foldl_cons, List.foldl_append, List.foldl_nil]
    have h1 : opStep vals st .dquote =
        { st with indq := true, removedq := false }.add '"' { origin := .literal, quotation := true } := by
      simp [opStep, St.dquote, hg.out, CC.lit]
    have h1a : (opStep vals st .dquote).all = glue st.all [[('"', { origin := .literal, quotation := true })]] := by
      rw [h1, St.all_add]; rfl
    have h1q : (opStep vals st .dquote).indq = true := by rw [h1]; rfl
    have h1r : (opStep vals st .dquote).removedq = false := by rw [h1]; rfl
    generalize opStep vals st .dquote = st1 at h1a h1q h1r
    obtain ⟨p1, p2, p3⟩ := parts_fold vals ps st1 h1q
    generalize (ps.map dop).foldl (opStep vals) st1 = st2 at p1 p2 p3
    rw [h1a, glue_assoc] at p1
    rw [h1r, Bool.false_or] at p3
    have hne : (∃ x ∈ ps.flatMap DPart.vars, val x = []) ↔ st2.removedq = true := by
      rw [p3, List.any_eq_true]
      constructor
      · rintro ⟨x, hx, h⟩
        refine ⟨x, hx, ?_⟩
        have := hv.text x hx
        rw [h] at this
        simp [List.map_eq_nil_iff.1 this]
      · rintro ⟨x, hx, h⟩
        refine ⟨x, hx, ?_⟩
        rw [← hv.text x hx, List.isEmpty_iff.1 h]; rfl
    simp only [opStep]
    by_cases hc : st2.removedq = true ∧ st2.all = [[('"', { origin := .literal, quotation := true })]]
    · -- the quotes are removed
      have hall := hc.2
      have hst : st2.fields = [] ∧ st2.buf = [('"', { origin := .literal, quotation := true })] := by
        simp only [St.all] at hall
        cases hf : st2.fields with
        | nil => rw [hf] at hall; simpa using hall
        | cons a l => rw [hf] at hall; simp at hall
      have hdq : st2.dquote .lit = { st2 with indq := false, buf := [], removeempty := true } := by
        simp [St.dquote, p2, hc.1, hst]
      rw [hdq]
      have hcur : ({ st2 with indq := false, buf := [], removeempty := true } : St).cur = [] := by
        simp [St.cur, hst]
      rw [hcur]
      refine ⟨⟨rfl, by rw [hcur]; simp, by rw [hcur]; simp⟩, ?_⟩
      rw [hall] at p1
      rcases glue_eq_single _ _ _ (glue_ne_nil _ _ (Or.inl (by simp))) p1.symm with ⟨h, _⟩ | ⟨y, z, ha, hb, hxyz⟩
      · simp [St.all] at h
      · rcases glue_eq_single _ _ _ (contentC_ne_nil vals ps) hb with ⟨h, _⟩ | ⟨y', z', ha', hb', hz⟩
        · simp at h
        · simp only [List.cons.injEq, and_true] at ha'
          subst ha'
          subst hz
          have hl := congrArg List.length hxyz
          simp only [List.length_append, List.length_cons, List.length_nil] at hl
          have hy : y = [] := List.eq_nil_of_length_eq_zero (by omega)
          have hz : z' = [] := List.eq_nil_of_length_eq_zero (by omega)
          subst hy hz
          have hcontent := (contentC_unit ps hv).1 hb'
          have hst0 : st.cur = [] := by
            simp only [St.all] at ha
            cases hf : st.fields with
            | nil =>
              rw [hf] at ha
              simp only [List.nil_append, List.cons.injEq, and_true] at ha
              simp [St.cur, hf, ha]
            | cons a l => rw [hf] at ha; simp at ha
          rw [hst0]
          simp only [Seg.fields]
          rw [if_pos ⟨hne.2 hc.1, hcontent⟩]
          rfl
    · have hdq : st2.dquote .lit = { st2 with indq := false }.add '"' { origin := .literal, quotation := true } := by
        unfold St.dquote
        rw [p2]
        simp only [if_true]
        rw [if_neg]
        · intro h
          simp only [Bool.and_eq_true] at h
          apply hc
          refine ⟨h.1.1, ?_⟩
          have hf := List.isEmpty_iff.1 h.1.2
          have h2 := h.2
          split at h2
          · rename_i c k hbuf
            simp only [Bool.and_eq_true, decide_eq_true_eq] at h2
            -- the only character is the opening quote
            rw [St.all, hf, hbuf, List.nil_append] at p1
            rcases glue_eq_single _ _ _ (glue_ne_nil _ _ (Or.inl (by simp))) p1.symm with ⟨h, _⟩ | ⟨y, z, ha, hb, hxyz⟩
            · simp [St.all] at h
            · rcases glue_eq_single _ _ _ (contentC_ne_nil vals ps) hb with ⟨h, _⟩ | ⟨y', z', ha', hb', hz⟩
              · simp at h
              · simp only [List.cons.injEq, and_true] at ha'
                subst ha'
                subst hz
                have hl := congrArg List.length hxyz
                simp only [List.length_append, List.length_cons, List.length_nil] at hl
                have hy : y = [] := List.eq_nil_of_length_eq_zero (by omega)
                have hz : z' = [] := List.eq_nil_of_length_eq_zero (by omega)
                subst hy hz
                simp only [List.nil_append, List.append_nil] at hxyz
                rw [St.all, hf, hbuf, hxyz]; rfl
          · cases h2
      rw [hdq]
      have hall : (({ st2 with indq := false } : St).add '"' { origin := .literal, quotation := true }).all =
          glue st.all (glue [[('"', { origin := .literal, quotation := true })]]
            (glue (contentC vals ps) [[('"', { origin := .literal, quotation := true })]])) := by
        rw [St.all_add, show ({ st2 with indq := false } : St).all = st2.all from rfl, p1, glue_assoc, glue_assoc]
      have hcur : (({ st2 with indq := false } : St).add '"' { origin := .literal, quotation := true }).cur =
          glue st.cur (glue [[('"', { origin := .literal, quotation := true })]]
            (glue (contentC vals ps) [[('"', { origin := .literal, quotation := true })]])) := by
        rw [St.cur_of_buf _ (by simp [St.add]), hall, St.all_eq_glue_cur _ _ (glue_ne_nil _ _ (Or.inl (by simp)))]
      refine ⟨⟨rfl, ?_, ?_⟩, ?_⟩
      · rw [hcur]
        refine glue_mem Inert _ _ hg.inert (glue_mem Inert _ _ (by simp [Inert]) (glue_mem Inert _ _ (content_inert ps hv) (by simp [Inert])))
      · rw [hcur]
        refine glue_nonempty _ _ hg.full (glue_nonempty' _ _ (by simp) ?_ (by simp))
        exact glue_nonempty_tail _ _ (content_tail ps hv)
      · rw [hcur, glue_map _ (quoteRemoval_append _), glue_map _ (quoteRemoval_append _), glue_map _ (quoteRemoval_append _),
          content_text ps hv]
        have hq : [[('"', ({ origin := .literal, quotation := true } : CC))]].map (quoteRemoval .none) = [[]] := rfl
        rw [hq, glue_unit _ (content_ne_nil val ps), unit_glue _ (content_ne_nil val ps)]
        simp only [Seg.fields]
        split
        · rename_i hn
          rw [hn.2, glue_nil_right]
          by_cases hs : st.cur = []
          · exfalso
            apply hc
            refine ⟨hne.1 hn.1, ?_⟩
            rw [p1, St.all_eq_glue_cur _ _ (glue_ne_nil _ _ (Or.inl (by simp))), hs, (contentC_unit ps hv).2 hn.2]
            rfl
          · rw [glue_unit]
            simpa using hs
        · rfl

end seg

end Yash.Expand
