import Verif.Arith.Sound
/-!
# Invariants of the evaluator

A predicate on states that is preserved by the primitive actions (reading a variable, assigning a
variable, reporting an error, converting an out of range floating point number) is preserved by
the parser.
-/
set_option autoImplicit false

namespace Yash.Arith

open Spec (NT)

/-- The tokens that assign to variables. -/
def Tok.assigns : Tok → Bool
  | .plusplus | .minusminus | .assign _ => true
  | _ => false

section
variable {D E : Type} (cfg : Cfg D E)

/-- `P` is preserved by what the evaluator of the tokens `T` may do. -/
structure Preserved (T : List Tok) (P : St E → Prop) : Prop where
  fail : ∀ st, P st → P st.fail
  undefined : ∀ st, (∃ d, cfg.dToLong d = none) → P st → P st.undefined
  get : ∀ st x, P st → P { st with env := (cfg.getvar st.env x).2 }
  set : ∀ st x s, (∃ t ∈ T, t.assigns = true) → P st →
    P { st with env := (cfg.setvar st.env x s).2 }

variable {cfg} {T : List Tok} {P : St E → Prop} (p : Preserved cfg T P)
include p

theorem Preserved.coerceNumber (v : Value D) {st : St E} (h : P st) :
    P (coerceNumber cfg v st).2 := by
  cases v with
  | var x =>
    have hg := p.get st x h
    simp only [Arith.coerceNumber]
    split
    · split
      · exact hg
      · exact p.fail _ hg
    · exact hg
    · split
      · exact hg
      · split
        · split
          · exact hg
          · exact p.fail _ hg
        · exact p.fail _ hg
  | _ => exact h

theorem Preserved.coerceInteger (v : Value D) {st : St E} (h : P st) :
    P (coerceInteger cfg v st).2 := by
  have := p.coerceNumber v h
  rw [Arith.coerceInteger]
  generalize Arith.coerceNumber cfg v st = r at *
  obtain ⟨w, st'⟩ := r
  cases w with
  | dbl d =>
    dsimp only
    cases hd : cfg.dToLong d with
    | some n => exact this
    | none => exact p.undefined _ ⟨d, hd⟩ this
  | _ => exact this

theorem Preserved.coerceType (v w : Value D) {st : St E} (h : P st) :
    P (coerceType cfg v w st).2 := by
  have := p.coerceNumber w (p.coerceNumber v h)
  rw [Arith.coerceType]
  dsimp only
  split <;> exact this

theorem Preserved.ofOutcome (o : Outcome) {st : St E} (h : P st) :
    P (ofOutcome (D := D) (some o) st).2 := by
  cases o <;> first | exact h | exact p.fail _ h

theorem Preserved.binary (op : CalcOp) (v w : Value D) {st : St E} (h : P st) :
    P (doBinaryCalculation cfg op v w st).2 := by
  cases op with
  | op1 op =>
    have := p.coerceType v w h
    rw [doBinaryCalculation]
    generalize Arith.coerceType cfg v w st = r at *
    obtain ⟨x, st'⟩ := r
    match x with
    | some (.inl (a, b)) => dsimp only; rw [C08_arithmetic]; exact p.ofOutcome _ this
    | some (.inr (a, b)) =>
      dsimp only
      split
      · exact this
      · exact p.fail _ this
    | none => exact this
  | op2 op =>
    have := p.coerceInteger w (p.coerceInteger v h)
    rw [doBinaryCalculation]
    dsimp only
    split
    · rw [C08_bits]; exact p.ofOutcome _ this
    · exact this

theorem Preserved.comparison (op : Cmp) (v w : Value D) {st : St E} (h : P st) :
    P (doComparison cfg op v w st).2 := by
  have := p.coerceType v w h
  rw [doComparison]
  split <;> simp_all

theorem Preserved.operator {l : Level} {t : Tok} {f : Value D → Value D → St E → Value D × St E}
    (hf : l.operator cfg t = some f) (v w : Value D) {st : St E} (h : P st) :
    P (f v w st).2 := by
  unfold Level.operator at hf
  split at hf
  all_goals first
    | (cases hf; exact p.binary _ _ _ h)
    | (cases hf; exact p.comparison _ _ _ h)
    | cases hf

theorem Preserved.toText (v : Value D) {st : St E} (h : P st) :
    P (valueToString cfg v st).2 := by
  cases v with
  | var x =>
    have hg := p.get st x h
    simp only [valueToString]
    split
    · exact hg
    · split <;> exact hg
  | _ => exact h

theorem Preserved.assign (ha : ∃ t ∈ T, t.assigns = true) (x : List Char) (v w : Value D)
    {st : St E} (h : P st) : P (doAssignment cfg x v w st).2 := by
  have := p.toText v h
  rw [doAssignment]
  generalize valueToString cfg v st = r at *
  obtain ⟨s, st'⟩ := r
  cases s with
  | none => exact p.fail _ this
  | some s =>
    dsimp only
    split
    · exact p.set _ _ _ ha this
    · exact p.fail _ (p.set _ _ _ ha this)

theorem Preserved.incDec (ha : ∃ t ∈ T, t.assigns = true) (inc pre : Bool) (v : Value D)
    {st : St E} (h : P st) : P (incDec cfg inc pre v st).2 := by
  rw [Arith.incDec.eq_def]
  split
  · exact p.fail _ h
  · cases v with
    | var x =>
      have := p.coerceNumber (.var x) h
      dsimp only
      generalize Arith.coerceNumber cfg (.var x) st = r at *
      obtain ⟨w, st'⟩ := r
      cases w with
      | long n =>
        dsimp only [doIncrementOrDecrement]
        have hi : longIncDec inc n = some (Spec.exact (if inc then n.val + 1 else n.val - 1)) := by
          have := C08_unary n
          cases inc
          · exact this.2.2.1
          · exact this.2.1
        rw [hi]
        generalize Spec.exact (if inc then n.val + 1 else n.val - 1) = o
        cases o with
        | ok m => exact p.assign ha _ _ _ this
        | _ => exact p.fail _ this
      | dbl d => exact p.assign ha _ _ _ this
      | invalid => exact p.assign ha _ _ _ this
      | var y => exact p.assign ha _ _ _ this
    | invalid => exact h
    | _ => exact p.fail _ h

theorem Preserved.unary (op : UnOp) (v : Value D) {st : St E} (h : P st) :
    P (doUnary cfg op v st).2 := by
  cases op with
  | plus => exact p.coerceNumber v h
  | minus =>
    have := p.coerceNumber v h
    rw [doUnary]
    generalize Arith.coerceNumber cfg v st = r at *
    obtain ⟨w, st'⟩ := r
    cases w with
    | long n => dsimp only; rw [(C08_unary n).1]; exact p.ofOutcome _ this
    | _ => exact this
  | tilde =>
    have := p.coerceInteger v h
    rw [doUnary]
    generalize Arith.coerceInteger cfg v st = r at *
    obtain ⟨w, st'⟩ := r
    cases w with
    | long n =>
      obtain ⟨m, hm, _⟩ := (C08_unary n).2.2.2
      dsimp only; rw [hm]; exact this
    | _ => exact this
  | excl =>
    have := p.coerceNumber v h
    rw [doUnary]
    generalize Arith.coerceNumber cfg v st = r at *
    obtain ⟨w, st'⟩ := r
    cases w <;> exact this

theorem Preserved.number (s : List Char) {st : St E} (h : P st) :
    P (parseAsNumber cfg s st).2 := by
  rw [parseAsNumber]
  split
  · exact h
  · split
    · split
      · exact h
      · exact p.fail _ h
    · exact p.fail _ h

theorem Preserved.next {i : Info E} (h : P i.st) : P i.next.st := by
  simp only [Info.next, reach]
  split
  · exact p.fail _ h
  · exact h

omit p in
theorem next_suffix {i : Info E} (h : i.toks <:+ T) : i.next.toks <:+ T := by
  refine List.IsSuffix.trans ?_ h
  simp only [Info.next, reach]
  exact List.tail_suffix _

omit p in
theorem tok_mem {i : Info E} {t : Tok} (h : i.toks <:+ T) (ht : i.tok = some t) : t ∈ T :=
  h.subset (by rw [tok_some ht]; exact List.mem_cons_self)

/-- All parsing functions preserve `P`. -/
structure Invariant (cfg : Cfg D E) (T : List Tok) (P : St E → Prop) (n : Nat) : Prop where
  assignment : ∀ i : Info E, i.toks <:+ T → P i.st → P (parseAssignment cfg n i).2.st
  conditional : ∀ i : Info E, i.toks <:+ T → P i.st → P (parseConditional cfg n i).2.st
  condLoop : ∀ v (i : Info E), i.toks <:+ T → P i.st → P (conditionalLoop cfg n v i).2.st
  logicalOr : ∀ i : Info E, i.toks <:+ T → P i.st → P (parseLogicalOr cfg n i).2.st
  orLoop : ∀ v (i : Info E), i.toks <:+ T → P i.st → P (logicalOrLoop cfg n v i).2.st
  logicalAnd : ∀ i : Info E, i.toks <:+ T → P i.st → P (parseLogicalAnd cfg n i).2.st
  andLoop : ∀ v (i : Info E), i.toks <:+ T → P i.st → P (logicalAndLoop cfg n v i).2.st
  binary : ∀ l (i : Info E), i.toks <:+ T → P i.st → P (parseBinary cfg n l i).2.st
  binLoop : ∀ l v (i : Info E), i.toks <:+ T → P i.st → P (binaryLoop cfg n l v i).2.st
  «prefix» : ∀ i : Info E, i.toks <:+ T → P i.st → P (parsePrefix cfg n i).2.st
  «postfix» : ∀ i : Info E, i.toks <:+ T → P i.st → P (parsePostfix cfg n i).2.st
  postLoop : ∀ v (i : Info E), i.toks <:+ T → P i.st → P (postfixLoop cfg n v i).2.st
  primary : ∀ i : Info E, i.toks <:+ T → P i.st → P (parsePrimary cfg n i).2.st

theorem invariant (n : Nat) : Invariant cfg T P n := by
  induction n with
  | zero =>
    refine ⟨?_, ?_, ?_, ?_, ?_, ?_, ?_, ?_, ?_, ?_, ?_, ?_, ?_⟩
    all_goals
      intros
      first
        | (rw [parseAssignment]; exact p.fail _ ‹_›)
        | (rw [parseConditional]; exact p.fail _ ‹_›)
        | (rw [conditionalLoop]; exact p.fail _ ‹_›)
        | (rw [parseLogicalOr]; exact p.fail _ ‹_›)
        | (rw [logicalOrLoop]; exact p.fail _ ‹_›)
        | (rw [parseLogicalAnd]; exact p.fail _ ‹_›)
        | (rw [logicalAndLoop]; exact p.fail _ ‹_›)
        | (rw [parseBinary]; exact p.fail _ ‹_›)
        | (rw [binaryLoop]; exact p.fail _ ‹_›)
        | (rw [parsePrefix]; exact p.fail _ ‹_›)
        | (rw [parsePostfix]; exact p.fail _ ‹_›)
        | (rw [postfixLoop]; exact p.fail _ ‹_›)
        | (rw [parsePrimary]; exact p.fail _ ‹_›)
  | succ n ih =>
    have so := sound cfg n
    refine ⟨?_, ?_, ?_, ?_, ?_, ?_, ?_, ?_, ?_, ?_, ?_, ?_, ?_⟩
    · intro i hs h
      rw [parseAssignment]
      have h1 := ih.conditional i hs h
      have s1 := (so.conditional i).suffix.trans hs
      generalize parseConditional cfg n i = r at *
      obtain ⟨v, j⟩ := r
      dsimp only at h1 s1 ⊢
      split
      · rename_i op ht
        have ha : ∃ t ∈ T, t.assigns = true := ⟨_, tok_mem s1 ht, rfl⟩
        have h2 := ih.assignment j.next (next_suffix s1) (p.next h1)
        generalize parseAssignment cfg n j.next = r at *
        obtain ⟨w, k⟩ := r
        dsimp only at h2 ⊢
        cases v with
        | var x =>
          dsimp only
          cases op with
          | none => exact p.assign ha _ _ _ h2
          | some op => exact p.assign ha _ _ _ (p.binary _ _ _ h2)
        | invalid => exact h2
        | _ => exact p.fail _ h2
      · exact h1
    · intro i hs h
      rw [parseConditional]
      exact ih.condLoop _ i hs h
    · intro v i hs h
      rw [conditionalLoop]
      have h1 := ih.logicalOr i hs h
      have s1 := (so.logicalOr i).suffix.trans hs
      generalize parseLogicalOr cfg n i = r at *
      obtain ⟨v, j⟩ := r
      dsimp only at h1 s1 ⊢
      split
      · exact h1
      · have h2 := p.coerceNumber v h1
        have h3 := p.next (i := ⟨j.toks, j.parseonly, (coerceNumber cfg v j.st).2⟩) h2
        have s3 := next_suffix (i := ⟨j.toks, j.parseonly, (coerceNumber cfg v j.st).2⟩) s1
        generalize hk : (⟨(Info.next ⟨j.toks, j.parseonly, (coerceNumber cfg v j.st).2⟩).toks, _, _⟩ : Info E) = k
        have hkt : k.toks <:+ T := by rw [← hk]; exact s3
        have hkp : P k.st := by rw [← hk]; exact h3
        have h4 := ih.assignment k hkt hkp
        have s4 := (so.assignment k).suffix.trans hkt
        generalize parseAssignment cfg n k = r2 at *
        obtain ⟨v2, i3⟩ := r2
        dsimp only at h4 s4 ⊢
        split
        · exact p.fail _ h4
        · exact ih.condLoop _ _ (next_suffix s4) (p.next h4)
    · intro i hs h
      rw [parseLogicalOr]
      exact ih.orLoop _ _ ((so.logicalAnd i).suffix.trans hs) (ih.logicalAnd i hs h)
    · intro v i hs h
      rw [logicalOrLoop]
      split
      · exact h
      · dsimp only
        have h2 := p.coerceNumber v h
        have h3 := p.next (i := ⟨i.toks, i.parseonly, (coerceNumber cfg v i.st).2⟩) h2
        have s3 := next_suffix (i := ⟨i.toks, i.parseonly, (coerceNumber cfg v i.st).2⟩) hs
        generalize hk : (⟨(Info.next ⟨i.toks, i.parseonly, (coerceNumber cfg v i.st).2⟩).toks, _, _⟩ : Info E) = k
        have hkt : k.toks <:+ T := by rw [← hk]; exact s3
        have hkp : P k.st := by rw [← hk]; exact h3
        refine ih.orLoop _ _ ?_ ?_
        · exact (so.logicalAnd k).suffix.trans hkt
        · exact p.coerceNumber _ (ih.logicalAnd k hkt hkp)
    · intro i hs h
      rw [parseLogicalAnd]
      exact ih.andLoop _ _ ((so.binary .or i).suffix.trans hs) (ih.binary .or i hs h)
    · intro v i hs h
      rw [logicalAndLoop]
      split
      · exact h
      · dsimp only
        have h2 := p.coerceNumber v h
        have h3 := p.next (i := ⟨i.toks, i.parseonly, (coerceNumber cfg v i.st).2⟩) h2
        have s3 := next_suffix (i := ⟨i.toks, i.parseonly, (coerceNumber cfg v i.st).2⟩) hs
        generalize hk : (⟨(Info.next ⟨i.toks, i.parseonly, (coerceNumber cfg v i.st).2⟩).toks, _, _⟩ : Info E) = k
        have hkt : k.toks <:+ T := by rw [← hk]; exact s3
        have hkp : P k.st := by rw [← hk]; exact h3
        refine ih.andLoop _ _ ?_ ?_
        · exact (so.binary .or k).suffix.trans hkt
        · exact p.coerceNumber _ (ih.binary .or k hkt hkp)
    · intro l i hs h
      rw [parseBinary]
      cases hl : l.next with
      | some l' => exact ih.binLoop _ _ _ ((so.binary l' i).suffix.trans hs) (ih.binary l' i hs h)
      | none => exact ih.binLoop _ _ _ ((so.«prefix» i).suffix.trans hs) (ih.«prefix» i hs h)
    · intro l v i hs h
      rw [binaryLoop]
      split
      · exact h
      · rename_i op ho
        rw [Option.bind_eq_some_iff] at ho
        obtain ⟨t, ht, ho⟩ := ho
        have s1 := next_suffix hs
        have h1 := p.next h
        cases hl : l.next with
        | some l' =>
          exact ih.binLoop _ _ _ ((so.binary l' _).suffix.trans s1)
            (p.operator ho _ _ (ih.binary l' _ s1 h1))
        | none =>
          exact ih.binLoop _ _ _ ((so.«prefix» _).suffix.trans s1)
            (p.operator ho _ _ (ih.«prefix» _ s1 h1))
    · intro i hs h
      rw [parsePrefix]
      have s1 := next_suffix hs
      have h1 := p.next h
      split
      · rename_i ht; exact p.incDec ⟨_, tok_mem hs ht, rfl⟩ _ _ _ (ih.«prefix» _ s1 h1)
      · rename_i ht; exact p.incDec ⟨_, tok_mem hs ht, rfl⟩ _ _ _ (ih.«prefix» _ s1 h1)
      · exact p.unary _ _ (ih.«prefix» _ s1 h1)
      · exact p.unary _ _ (ih.«prefix» _ s1 h1)
      · exact p.unary _ _ (ih.«prefix» _ s1 h1)
      · exact p.unary _ _ (ih.«prefix» _ s1 h1)
      · exact ih.«postfix» _ hs h
    · intro i hs h
      rw [parsePostfix]
      exact ih.postLoop _ _ ((so.primary i).suffix.trans hs) (ih.primary i hs h)
    · intro v i hs h
      rw [postfixLoop]
      split
      · rename_i ht
        have h2 := p.incDec ⟨_, tok_mem hs ht, rfl⟩ true false v h
        exact ih.postLoop _ _ (next_suffix (i := ⟨i.toks, i.parseonly, _⟩) hs)
          (p.next (i := ⟨i.toks, i.parseonly, _⟩) h2)
      · rename_i ht
        have h2 := p.incDec ⟨_, tok_mem hs ht, rfl⟩ false false v h
        exact ih.postLoop _ _ (next_suffix (i := ⟨i.toks, i.parseonly, _⟩) hs)
          (p.next (i := ⟨i.toks, i.parseonly, _⟩) h2)
      · exact h
    · intro i hs h
      rw [parsePrimary]
      dsimp only
      split
      · have h1 := ih.assignment i.next (next_suffix hs) (p.next h)
        split
        · exact p.next h1
        · exact p.fail _ h1
      · exact p.next (i := ⟨i.toks, i.parseonly, _⟩) (p.number _ h)
      · exact p.next h
      · exact p.fail _ h

end

end Yash.Arith
