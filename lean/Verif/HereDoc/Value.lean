import Verif.HereDoc.Spec
/-!
# What the contents of here-documents become
-/
set_option autoImplicit false

namespace Yash.HereDoc

open Syntax Spec
open Expand (Locale CWord quoteRemoval St)

/-! ## Literal text -/

/-- Text in a string unit and what it becomes. -/
inductive Lit : List Char → List Char → Prop
  | nil : Lit [] []
  | char {c : Char} {s t : List Char} : c ≠ '\\' → Lit s t → Lit (c :: s) (c :: t)
  | quoted {c : Char} {s t : List Char} : c = '$' ∨ c = '`' ∨ c = '\\' → Lit s t → Lit ('\\' :: c :: s) (c :: t)
  | backslash {c : Char} {s t : List Char} : ¬(c = '$' ∨ c = '`' ∨ c = '\\') → Lit s t → Lit ('\\' :: c :: s) ('\\' :: c :: t)

theorem Lit.append {a b s t : List Char} (h : Lit a s) (h' : Lit b t) : Lit (a ++ b) (s ++ t) := by
  induction h with
  | nil => exact h'
  | char hc _ ih => exact .char hc ih
  | quoted hc _ ih => exact .quoted hc ih
  | backslash hc _ ih => exact .backslash hc ih

theorem Lit.escape (s : List Char) : Lit (Expand.escape (some ['\\']) s) s := by
  induction s with
  | nil => exact .nil
  | cons c s ih =>
    simp only [Expand.escape]
    by_cases hc : c = '\\'
    · subst hc
      exact .quoted (by simp) ih
    · rw [if_neg (by simpa using hc)]
      exact .char hc ih

theorem removal_append (a b : CWord) : quoteRemoval .none (a ++ b) = quoteRemoval .none a ++ quoteRemoval .none b := by
  induction a with
  | nil => rfl
  | cons x a ih =>
    obtain ⟨c, cc⟩ := x
    simp only [List.cons_append, quoteRemoval]
    split
    · exact ih
    · simp [Expand.shouldEscape, ih]

theorem removal_plain (s : List Char) (cc : Expand.CC) (h : cc.quotation = false) : quoteRemoval .none (s.map fun c => (c, cc)) = s := by
  induction s with
  | nil => rfl
  | cons c s ih => simp [quoteRemoval, h, Expand.shouldEscape, ih]

variable {σ : Type} {E : Expand.Env σ}

theorem loop_lit {a t : List Char} (h : Lit a t) (s : σ) (hn : Bool) (st : St) (hq : st.indq = false) :
    ∃ x, Expand.stringLoop E s .none .indq .lit hn st a = some { st with buf := st.buf ++ x } ∧ quoteRemoval .none x = t := by
  induction h generalizing st with
  | nil => exact ⟨[], by simp [Expand.stringLoop], rfl⟩
  | @char c s' t' hc _ ih =>
    obtain ⟨x, h1, h2⟩ := ih (st.add c .lit) hq
    refine ⟨(c, .lit) :: x, ?_, by simp [quoteRemoval, Expand.shouldEscape, h2]⟩
    rw [Expand.stringLoop.eq_def]
    simp only
    rw [if_neg (by simp), if_neg (by simp), if_neg (by simp [hc]), if_neg (by simp)]
    simp only [hq, Bool.or_false]
    rw [h1]
    simp [St.add, hq]
  | @quoted c s' t' hc _ ih =>
    obtain ⟨x, h1, h2⟩ := ih ((st.add '\\' { Expand.CC.lit with quotation := true }).add c { Expand.CC.lit with quoted := true }) hq
    refine ⟨('\\', { Expand.CC.lit with quotation := true }) :: (c, { Expand.CC.lit with quoted := true }) :: x, ?_,
      by simp [quoteRemoval, Expand.shouldEscape, h2]⟩
    rw [Expand.stringLoop.eq_def]
    simp only
    rw [if_neg (by simp), if_neg (by simp), if_pos (by rcases hc with rfl | rfl | rfl <;> simp [Expand.backslashQuotes])]
    rw [h1]
    simp [St.add, hq]
  | @backslash c s' t' hc _ ih =>
    have hc' : c ≠ '\\' := fun e => hc (by simp [e])
    obtain ⟨x, h1, h2⟩ := ih ((st.add '\\' .lit).add c .lit) hq
    refine ⟨('\\', .lit) :: (c, .lit) :: x, ?_, by simp [quoteRemoval, Expand.shouldEscape, h2]⟩
    rw [Expand.stringLoop.eq_def]
    simp only
    rw [if_neg (by simp), if_neg (by simp), if_neg (by simpa [Expand.backslashQuotes, and_assoc] using hc), if_neg (by simp)]
    simp only [hq, Bool.or_false]
    rw [Expand.stringLoop.eq_def]
    simp only
    rw [if_neg (by simp), if_neg (by simp), if_neg (by simp [hc']), if_neg (by simp)]
    rw [show (st.add '\\' .lit).indq = false from hq]
    simp only [Bool.or_false]
    rw [h1]
    simp [St.add, hq]

/-! ## Words -/

/-- The word that the items make; `acc` is text before them. -/
def wordOf (acc : List Char) : List Item → Word
  | [] => stringUnit acc
  | .char c :: is => wordOf (acc ++ [c]) is
  | .backslash c :: is => wordOf (acc ++ ['\\', c]) is
  | .continuation :: is => wordOf acc is
  | .dollar :: is => stringUnit acc ++ wordOf ['$'] is
  | .unit u :: is => stringUnit acc ++ u :: wordOf [] is
  | .backquotes s :: is => stringUnit acc ++ .cmdsub (.unparsed s) :: wordOf [] is

theorem bind_apply {α β : Type} (m : Expand.M σ α) (f : α → Expand.M σ β) (s : σ) :
    (m >>= f) s = match m s with
      | .abort => .abort
      | .fail s => .fail s
      | .ok s a => f a s := rfl

/-- The unit becomes the text. -/
def UnitBecomes (E : Expand.Env σ) (s : σ) (u : WordUnit) (s' : σ) (t : List Char) : Prop :=
  ∀ first hn st, st.indq = false → ∃ x, Expand.expandUnit E .none .indq .lit first hn st u s = .ok s' { st with buf := st.buf ++ x } ∧
    quoteRemoval .none x = t

/-- The word becomes the text. -/
inductive Becomes (E : Expand.Env σ) : σ → Word → σ → List Char → Prop
  | nil (s : σ) : Becomes E s [] s []
  | cons {s s' s'' : σ} {u : WordUnit} {w : Word} {t t' : List Char} : UnitBecomes E s u s' t → Becomes E s' w s'' t' →
    Becomes E s (u :: w) s'' (t ++ t')

theorem Becomes.append {s s' s'' : σ} {w w' : Word} {t t' : List Char} (h : Becomes E s w s' t) (h' : Becomes E s' w' s'' t') :
    Becomes E s (w ++ w') s'' (t ++ t') := by
  induction h with
  | nil => exact h'
  | cons hu _ ih =>
    rw [List.append_assoc]
    exact .cons hu (ih h')

theorem Becomes.units {s s' : σ} {w : Word} {t : List Char} (h : Becomes E s w s' t) (first : Bool) (st : St) (hq : st.indq = false) :
    ∃ x, Expand.expandUnits E .none .indq .lit first st w s = .ok s' { st with buf := st.buf ++ x } ∧ quoteRemoval .none x = t := by
  induction h generalizing first st with
  | nil s => exact ⟨[], by simp [Expand.expandUnits]; rfl, rfl⟩
  | @cons s s' s'' u w t t' hu _ ih =>
    obtain ⟨x, h1, h2⟩ := hu first (!w.isEmpty) st hq
    obtain ⟨y, h3, h4⟩ := ih false { st with buf := st.buf ++ x } hq
    refine ⟨x ++ y, ?_, by rw [removal_append, h2, h4]⟩
    rw [Expand.expandUnits, bind_apply, h1]
    simp only
    rw [h3]
    simp

theorem Becomes.opened {s s' : σ} {w : Word} {t : List Char} (h : Becomes E s w s' t) : openHeredocument E w s = .ok s' t := by
  obtain ⟨x, h1, h2⟩ := h.units true {} rfl
  unfold openHeredocument Expand.expandSingle
  rw [bind_apply, h1]
  simp [Expand.single, St.finish, Expand.joinFields, h2]

/-! ## Units -/

theorem UnitBecomes.str {a t : List Char} (h : Lit a t) (s : σ) : UnitBecomes E s (.str a) s t := by
  rintro first hn ⟨f, b, q, r, e⟩ hq
  cases hq
  obtain ⟨x, h1, h2⟩ := loop_lit (E := E) h s hn ⟨f, b, false, r, e⟩ rfl
  refine ⟨x, ?_, h2⟩
  simp only [Expand.expandUnit, Expand.expandString]
  rw [show (first && Expand.Tilde.none != Expand.Tilde.none) = false by simp]
  simp only [Bool.false_eq_true, if_false]
  rw [h1]
  rfl

theorem Becomes.stringUnit {a t : List Char} (h : Lit a t) (s : σ) : Becomes E s (stringUnit a) s t := by
  unfold Syntax.stringUnit
  cases a with
  | nil => cases h; exact .nil s
  | cons c a =>
    have := Becomes.cons (UnitBecomes.str (E := E) h s) (.nil s)
    simpa using this

theorem UnitBecomes.command {s s' : σ} {c : Embed} {t : List Char} (h : E.cmdsub s c = (s', some t)) : UnitBecomes E s (.cmdsub c) s' t := by
  rintro first hn ⟨f, b, q, r, e⟩ hq
  cases hq
  refine ⟨t.map fun d => (d, { origin := .soft }), ?_, removal_plain _ _ rfl⟩
  rw [Expand.expandUnit, bind_apply]
  simp only [Expand.M.act, h]
  rfl

theorem UnitBecomes.arith {s s' s'' : σ} {w : Word} {x t : List Char} (h : Expand.expandSingle E .none .indq .none w s = .ok s' x)
    (h' : E.arith s' x = (s'', some t)) : UnitBecomes E s (.arith w) s'' t := by
  rintro first hn ⟨f, b, q, r, e⟩ hq
  cases hq
  refine ⟨t.map fun d => (d, { origin := .soft }), ?_, removal_plain _ _ rfl⟩
  unfold Expand.expandSingle at h
  rw [bind_apply] at h
  rw [Expand.expandUnit, bind_apply]
  revert h
  cases Expand.expandUnits E .none .indq .lit true {} w s with
  | abort => simp
  | fail _ => simp
  | ok s1 st1 =>
    simp only
    intro h
    rw [bind_apply, h]
    simp only
    rw [bind_apply]
    simp only [Expand.M.act, h']
    rfl

theorem UnitBecomes.param {s s' : σ} {p : Param} {v : CWord} (h : Expand.expandParam E false p s = .ok s' [v]) :
    UnitBecomes E s (.param p) s' (quoteRemoval .none v) := by
  rintro first hn ⟨f, b, q, r, e⟩ hq
  cases hq
  refine ⟨v, ?_, rfl⟩
  rw [Expand.expandUnit, bind_apply]
  rw [show (false || decide (Expand.Quoting.indq = .literal) || Expand.CC.lit.quoted) = false by simp]
  rw [h]
  rfl

theorem param_scalar {s : σ} {n v : List Char} (h : E.get s n = .scalar v) :
    Expand.expandParam E false (.mk {} (.name n) [] [] [] []) s = .ok s [v.map fun c => (c, { origin := .soft })] := by
  rw [Expand.expandParam]
  simp only [List.isEmpty_nil, if_true]
  rw [bind_apply]
  change (Expand.expandBase E (.name n) >>= _) s = _
  rw [bind_apply]
  simp only [Expand.expandBase, h]
  simp [Expand.select, Expand.trimString, Expand.countsUnset, Expand.finishParam, Expand.markValues]

theorem param_unset {s : σ} {n : List Char} (h : E.get s n = .notFound) (hu : E.unsetOk = true) :
    Expand.expandParam E false (.mk {} (.name n) [] [] [] []) s = .ok s [[]] := by
  rw [Expand.expandParam]
  simp only [List.isEmpty_nil, if_true]
  rw [bind_apply]
  change (Expand.expandBase E (.name n) >>= _) s = _
  rw [bind_apply]
  simp only [Expand.expandBase, h]
  simp [Expand.select, Expand.trimString, Expand.countsUnset, Expand.finishParam, Expand.markValues, hu]

theorem UnitBecomes.of {s s' : σ} {u : WordUnit} {t : List Char} (h : Value E s (.unit u) s' t) : UnitBecomes E s u s' t := by
  cases h with
  | command h => exact .command h
  | «variable» h =>
    have := UnitBecomes.param (param_scalar h)
    rwa [removal_plain _ _ rfl] at this
  | unset h hu => exact UnitBecomes.param (param_unset h hu)
  | param h => exact .param h
  | arith h h' => exact .arith h h'

/-! ## Items -/

theorem Values.append {s s'' : σ} {is js : List Item} {t : List Char} :
    Values E s (is ++ js) s'' t ↔ ∃ s' a b, Values E s is s' a ∧ Values E s' js s'' b ∧ t = a ++ b := by
  constructor
  · intro h
    induction is generalizing s t with
    | nil => exact ⟨s, [], t, .nil s, h, rfl⟩
    | cons i is ih =>
      cases h with
      | cons h1 h2 =>
        obtain ⟨s', a, b, k1, k2, rfl⟩ := ih h2
        exact ⟨s', _, b, .cons h1 k1, k2, by simp⟩
  · rintro ⟨s', a, b, h1, h2, rfl⟩
    induction h1 with
    | nil => exact h2
    | cons k1 _ ih =>
      rw [List.append_assoc]
      exact .cons k1 (ih h2)

/-- No item is a backslash that stands for itself. -/
def Plain (is : List Item) : Prop := ∀ i ∈ is, i ≠ .char '\\'

theorem wordOf_becomes {acc a : List Char} (ha : Lit acc a) {s s' : σ} {is : List Item} {t : List Char} (hp : Plain is) (h : Values E s is s' t) :
    Becomes E s (wordOf acc is) s' (a ++ t) := by
  induction h generalizing acc a with
  | nil s => simpa [wordOf] using Becomes.stringUnit ha s
  | @cons s s' s'' i is t t' h1 _ ih =>
    have hp' : Plain is := fun j hj => hp j (List.mem_cons_of_mem _ hj)
    have hi : i ≠ .char '\\' := hp i (by simp)
    cases i with
    | char c =>
      cases h1
      rw [wordOf, ← List.append_assoc]
      exact ih (ha.append (.char (fun e => hi (by rw [e])) .nil)) hp'
    | backslash c =>
      rw [wordOf, ← List.append_assoc]
      cases h1 with
      | quoted hc => exact ih (ha.append (.quoted (by simpa using hc) .nil)) hp'
      | backslash hc => exact ih (ha.append (.backslash (by simpa using hc) .nil)) hp'
    | continuation =>
      cases h1
      exact ih ha hp'
    | dollar =>
      cases h1
      rw [wordOf]
      exact (Becomes.stringUnit ha _).append (ih (.char (by decide) .nil) hp')
    | unit u =>
      rw [wordOf]
      exact (Becomes.stringUnit ha _).append (.cons (.of h1) (by simpa using ih .nil hp'))
    | backquotes c =>
      cases h1 with
      | backquotes h1 =>
        rw [wordOf]
        exact (Becomes.stringUnit ha _).append (.cons (.command h1) (by simpa using ih .nil hp'))

/-- Characters that stand for themselves become themselves. -/
theorem Values.chars {s s' : σ} {l t : List Char} (h : Values E s (l.map .char) s' t) : s' = s ∧ t = l := by
  induction l generalizing t with
  | nil => cases h; exact ⟨rfl, rfl⟩
  | cons c l ih =>
    cases h with
    | cons h1 h2 =>
      cases h1
      obtain ⟨rfl, rfl⟩ := ih h2
      exact ⟨rfl, rfl⟩

theorem escape_becomes (s : σ) (l : List Char) : Becomes E s [.str (Expand.escape (some ['\\']) l)] s l := by
  have := Becomes.cons (UnitBecomes.str (E := E) (Lit.escape l) s) (.nil s)
  simpa using this

end Yash.HereDoc
