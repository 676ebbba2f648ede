import Verif.Arith.Complete
/-!
# The parser reports an error unless the tokens are derivable; fuel does not matter
-/
set_option autoImplicit false

namespace Yash.Arith

open Spec (Expr NT Derives)

section
variable {D E : Type} (cfg : Cfg D E)

/-! ## Errors are never forgotten -/

theorem coerceNumber_err {v : Value D} {st : St E} (h : st.err = true) :
    (coerceNumber cfg v st).2.err = true := by
  unfold coerceNumber
  dsimp only
  repeat' split
  all_goals simp [St.fail, h]

theorem coerceInteger_err {v : Value D} {st : St E} (h : st.err = true) :
    (coerceInteger cfg v st).2.err = true := by
  have h1 := coerceNumber_err cfg (v := v) h
  unfold coerceInteger
  generalize coerceNumber cfg v st = r at *
  obtain ⟨r, st'⟩ := r
  cases r <;> simp only at h1 ⊢ <;> try exact h1
  split <;> simp [St.undefined, h1]

theorem coerceType_err {a b : Value D} {st : St E} (h : st.err = true) :
    (coerceType cfg a b st).2.err = true := by
  have h2 := coerceNumber_err cfg (v := b) (coerceNumber_err cfg (v := a) h)
  unfold coerceType
  dsimp only
  split <;> exact h2

theorem ofOutcome_err {o : Option Outcome} {st : St E} (h : st.err = true) :
    (ofOutcome o st : Value D × St E).2.err = true := by
  unfold ofOutcome; split <;> simp [St.undefined, St.fail, h]

theorem doBinaryCalculation_err {op : CalcOp} {a b : Value D} {st : St E} (h : st.err = true) :
    (doBinaryCalculation cfg op a b st).2.err = true := by
  cases op with
  | op1 op =>
    have h1 := coerceType_err cfg (a := a) (b := b) h
    simp only [doBinaryCalculation]
    split
    · rename_i he; rw [he] at h1; exact ofOutcome_err h1
    · rename_i he; rw [he] at h1; split <;> simp_all [St.fail]
    · rename_i he; rw [he] at h1; exact h1
  | op2 op =>
    have h1 := coerceInteger_err cfg (v := b) (coerceInteger_err cfg (v := a) h)
    simp only [doBinaryCalculation]
    split
    · exact ofOutcome_err h1
    · exact h1

theorem doComparison_err {op : Cmp} {a b : Value D} {st : St E} (h : st.err = true) :
    (doComparison cfg op a b st).2.err = true := by
  have h1 := coerceType_err cfg (a := a) (b := b) h
  simp only [doComparison]
  split <;> rename_i he <;> rw [he] at h1 <;> exact h1

theorem operator_err {l : Level} {t : Tok} {op : Value D → Value D → St E → Value D × St E}
    (ho : l.operator cfg t = some op) {a b : Value D} {st : St E} (h : st.err = true) :
    (op a b st).2.err = true := by
  unfold Level.operator at ho
  split at ho <;> simp only [Option.some.injEq, reduceCtorEq] at ho <;> subst ho <;>
    first | exact doBinaryCalculation_err cfg h | exact doComparison_err cfg h

theorem doAssignment_err {x : List Char} {v r : Value D} {st : St E} (h : st.err = true) :
    (doAssignment cfg x v r st).2.err = true := by
  unfold doAssignment
  have h1 : (valueToString cfg v st).2.err = true := by
    unfold valueToString; dsimp only; repeat' split
    all_goals simp [h]
  generalize valueToString cfg v st = t at *
  obtain ⟨s, st'⟩ := t
  cases s with
  | none => simp [St.fail]
  | some s => dsimp only; split <;> simp_all [St.fail]

theorem incDec_err {inc pre : Bool} {v : Value D} {st : St E} (h : st.err = true) :
    (incDec cfg inc pre v st).2.err = true := by
  unfold incDec
  split
  · simp [St.fail]
  · cases v with
    | var x =>
      have h1 := coerceNumber_err cfg (v := (.var x : Value D)) h
      dsimp only
      have h2 : (doIncrementOrDecrement cfg inc (coerceNumber cfg (.var x : Value D) st).1
          (coerceNumber cfg (.var x : Value D) st).2).2.2.err = true := by
        unfold doIncrementOrDecrement
        split
        · split <;> simp [St.undefined, h1]
        · exact h1
        · exact h1
      generalize doIncrementOrDecrement cfg inc _ _ = d at *
      obtain ⟨b, w, st'⟩ := d
      cases b
      · simp [St.fail]
      · exact doAssignment_err cfg h2
    | invalid => exact h
    | long n => simp [St.fail]
    | dbl d => simp [St.fail]

theorem doUnary_err {op : UnOp} {v : Value D} {st : St E} (h : st.err = true) :
    (doUnary cfg op v st).2.err = true := by
  have h1 := coerceNumber_err cfg (v := v) h
  have h2 := coerceInteger_err cfg (v := v) h
  cases op with
  | plus => exact h1
  | minus =>
    simp only [doUnary]
    generalize coerceNumber cfg v st = r at *
    obtain ⟨r, st'⟩ := r
    cases r <;> simp only at h1 ⊢ <;> first | exact ofOutcome_err h1 | exact h1
  | tilde =>
    simp only [doUnary]
    generalize coerceInteger cfg v st = r at *
    obtain ⟨r, st'⟩ := r
    cases r <;> simp only at h2 ⊢ <;> first | exact h2 | (split <;> simp [h2, St.undefined])
  | excl =>
    simp only [doUnary]
    generalize coerceNumber cfg v st = r at *
    obtain ⟨r, st'⟩ := r
    cases r <;> exact h1

theorem parseAsNumber_err {s : List Char} {st : St E} (h : st.err = true) :
    (parseAsNumber cfg s st : Value D × St E).2.err = true := by
  unfold parseAsNumber
  repeat' split
  all_goals simp [St.fail, h]

theorem next_err {i : Info E} (h : i.st.err = true) : i.next.st.err = true := by
  unfold Info.next reach
  split <;> simp [St.fail, h]

theorem tok_some {i : Info E} {t : Tok} (h : i.tok = some t) : i.toks = t :: i.next.toks := by
  unfold Info.tok at h
  unfold Info.next reach
  cases hi : i.toks with
  | nil => rw [hi] at h; simp at h
  | cons a l => rw [hi] at h; simp at h; simp [h]

/-! ## Soundness -/

/-- Going from `i` to `i'`: errors are kept, tokens are consumed, and, unless an error is
reported, the consumed tokens are derivable from `nt`. -/
structure Good (nt : NT) (i i' : Info E) : Prop where
  err : i.st.err = true → i'.st.err = true
  suffix : i'.toks <:+ i.toks
  derives : i'.st.err = false → ∃ u e, i.toks = u ++ i'.toks ∧ Derives nt u e

/-- The same for a loop that has already read a string derivable from `nt`. -/
structure LoopGood (nt : NT) (i i' : Info E) : Prop where
  err : i.st.err = true → i'.st.err = true
  suffix : i'.toks <:+ i.toks
  derives : i'.st.err = false → ∀ u e, Derives nt u e →
    ∃ w e', i.toks = w ++ i'.toks ∧ Derives nt (u ++ w) e'

theorem Good.fail (nt : NT) (i : Info E) : Good nt i i.fail :=
  ⟨fun _ => rfl, List.suffix_refl _, fun h => by simp [Info.fail, St.fail] at h⟩

theorem LoopGood.fail (nt : NT) (i : Info E) : LoopGood nt i i.fail :=
  ⟨fun _ => rfl, List.suffix_refl _, fun h => by simp [Info.fail, St.fail] at h⟩

theorem LoopGood.stop (nt : NT) (i : Info E) : LoopGood nt i i :=
  ⟨id, List.suffix_refl _, fun _ u e h => ⟨[], e, by simp, by simpa using h⟩⟩

theorem not_err {a b : Bool} (h : a = true → b = true) (hb : b = false) : a = false := by
  cases a <;> simp_all

/-- Only the error flag and the tokens matter. -/
theorem Good.congr {nt : NT} {i i' j j' : Info E} (h : Good nt i i') (h1 : j.st.err = i.st.err)
    (h2 : j.toks = i.toks) (h3 : i'.st.err = true → j'.st.err = true) (h4 : j'.toks = i'.toks) :
    Good nt j j' :=
  ⟨fun e => h3 (h.err (by rw [← h1, e])), by rw [h2, h4]; exact h.suffix, fun e => by
    rw [h2, h4]; exact h.derives (not_err h3 e)⟩

theorem LoopGood.congr {nt : NT} {i i' j j' : Info E} (h : LoopGood nt i i')
    (h1 : j.st.err = true → i.st.err = true) (h2 : j.toks = i.toks)
    (h3 : i'.st.err = true → j'.st.err = true) (h4 : j'.toks = i'.toks) :
    LoopGood nt j j' :=
  ⟨fun e => h3 (h.err (h1 e)), by rw [h2, h4]; exact h.suffix, fun e => by
    rw [h2, h4]; exact h.derives (not_err h3 e)⟩

/-- An operand and then the loop. -/
theorem Good.loop {n m : NT} {i j k : Info E} (h1 : Good m i j) (h2 : LoopGood n j k)
    (hc : Spec.Chain n m) : Good n i k :=
  ⟨fun e => h2.err (h1.err e), h2.suffix.trans h1.suffix, fun e => by
    obtain ⟨u, a, hu, hd⟩ := h1.derives (not_err h2.err e)
    obtain ⟨w, b, hw, hd'⟩ := h2.derives e u a (.chain hc hd)
    exact ⟨u ++ w, b, by rw [hu, hw, List.append_assoc], hd'⟩⟩

/-- One iteration of a binary operator loop: `i` at the operator, `j` after the operand. -/
theorem LoopGood.step {n m : NT} {i j j' k : Info E} {t : Tok} {f : Expr → Expr → Expr}
    (ht : i.tok = some t) (hb : Spec.Binary n t m f)
    {i1 : Info E} (hi1 : i1.toks = i.next.toks) (he1 : i.st.err = true → i1.st.err = true)
    (h1 : Good m i1 j) (hj : j.st.err = true → j'.st.err = true) (hjt : j'.toks = j.toks)
    (h2 : LoopGood n j' k) : LoopGood n i k := by
  have htk := tok_some ht
  refine ⟨fun e => h2.err (hj (h1.err (he1 e))), ?_, fun e u a hd => ?_⟩
  · rw [htk, ← hi1]
    refine (h2.suffix.trans ?_).trans (List.suffix_cons _ _)
    rw [hjt]; exact h1.suffix
  · obtain ⟨v, b, hv, hdb⟩ := h1.derives (not_err hj (not_err h2.err e))
    obtain ⟨w, c, hw, hdc⟩ := h2.derives e _ _ (.binary hb hd hdb)
    refine ⟨[t] ++ v ++ w, c, ?_, ?_⟩
    · rw [htk, ← hi1, hv, ← hjt, hw]; simp
    · simpa using hdc

/-- The nonterminal of a level. -/
def ntOf : Level → NT
  | .or => .inclusiveOr
  | .xor => .exclusiveOr
  | .and => .and
  | .equality => .equality
  | .relational => .relational
  | .shift => .shift
  | .additive => .additive
  | .multiplicative => .multiplicative

/-- The nonterminal of the operands of a level. -/
def operandOf (l : Level) : NT :=
  match l.next with
  | some l' => ntOf l'
  | none => .prefix

theorem chain_level (l : Level) : Spec.Chain (ntOf l) (operandOf l) := by
  cases l <;> constructor

theorem operator_binary {l : Level} {t : Tok} {op : Value D → Value D → St E → Value D × St E}
    (ho : l.operator cfg t = some op) : ∃ f, Spec.Binary (ntOf l) t (operandOf l) f := by
  unfold Level.operator at ho
  split at ho <;> first | (exfalso; simp only [reduceCtorEq] at ho; done) | skip
  all_goals exact ⟨_, by constructor⟩

structure Sound (n : Nat) : Prop where
  assignment : ∀ i : Info E, Good .assignment i (parseAssignment cfg n i).2
  conditional : ∀ i : Info E, Good .conditional i (parseConditional cfg n i).2
  condLoop : ∀ v (i : Info E), Good .conditional i (conditionalLoop cfg n v i).2
  logicalOr : ∀ i : Info E, Good .logicalOr i (parseLogicalOr cfg n i).2
  orLoop : ∀ v (i : Info E), LoopGood .logicalOr i (logicalOrLoop cfg n v i).2
  logicalAnd : ∀ i : Info E, Good .logicalAnd i (parseLogicalAnd cfg n i).2
  andLoop : ∀ v (i : Info E), LoopGood .logicalAnd i (logicalAndLoop cfg n v i).2
  binary : ∀ l (i : Info E), Good (ntOf l) i (parseBinary cfg n l i).2
  binLoop : ∀ l v (i : Info E), LoopGood (ntOf l) i (binaryLoop cfg n l v i).2
  «prefix» : ∀ i : Info E, Good .prefix i (parsePrefix cfg n i).2
  «postfix» : ∀ i : Info E, Good .postfix i (parsePostfix cfg n i).2
  postLoop : ∀ v (i : Info E), LoopGood .postfix i (postfixLoop cfg n v i).2
  primary : ∀ i : Info E, Good .primary i (parsePrimary cfg n i).2

theorem good_prefix {i j k : Info E} {t : Tok} {f : Expr → Expr} (hp : Spec.Prefix t f)
    (ht : i.tok = some t) (h : Good .prefix i.next j) (he : j.st.err = true → k.st.err = true)
    (hk : k.toks = j.toks) : Good .prefix i k := by
  have htk := tok_some ht
  refine ⟨fun e => he (h.err (next_err e)), ?_, fun e => ?_⟩
  · rw [htk, hk]; exact h.suffix.trans (List.suffix_cons _ _)
  · obtain ⟨u, a, hu, hd⟩ := h.derives (not_err he e)
    exact ⟨[t] ++ u, f a, by rw [htk, hu, hk]; simp, .pre hp hd⟩

theorem loopGood_post {i j k : Info E} {t : Tok} {inc : Bool}
    (htt : (t = .plusplus ∧ inc = true) ∨ (t = .minusminus ∧ inc = false))
    (ht : i.tok = some t) (hj : j.toks = i.next.toks) (he : i.st.err = true → j.st.err = true)
    (h : LoopGood .postfix j k) : LoopGood .postfix i k := by
  have htk := tok_some ht
  refine ⟨fun e => h.err (he e), ?_, fun e u a hd => ?_⟩
  · rw [htk, ← hj]; exact h.suffix.trans (List.suffix_cons _ _)
  · have hd' : Derives .postfix (u ++ [t]) (.post inc a) := by
      rcases htt with ⟨rfl, rfl⟩ | ⟨rfl, rfl⟩
      · exact .inc hd
      · exact .dec hd
    obtain ⟨w, b, hw, hdb⟩ := h.derives e _ _ hd'
    exact ⟨[t] ++ w, b, by rw [htk, ← hj, hw]; simp, by simpa using hdb⟩

theorem sound (n : Nat) : Sound cfg n := by
  induction n with
  | zero =>
    refine ⟨?_, ?_, ?_, ?_, ?_, ?_, ?_, ?_, ?_, ?_, ?_, ?_, ?_⟩
    all_goals intros
    all_goals first
      | exact Good.fail _ _
      | exact LoopGood.fail _ _
  | succ n ih =>
    refine ⟨?_, ?_, ?_, ?_, ?_, ?_, ?_, ?_, ?_, ?_, ?_, ?_, ?_⟩
    · -- assignment
      intro i
      have h1 := ih.conditional i
      rw [parseAssignment]
      dsimp only
      split
      · rename_i op ht
        have h2 := ih.assignment (parseConditional cfg n i).2.next
        have htk := tok_some ht
        have key : ∀ k : Info E, k.toks = (parseAssignment cfg n (parseConditional cfg n i).2.next).2.toks →
            ((parseAssignment cfg n (parseConditional cfg n i).2.next).2.st.err = true → k.st.err = true) →
            Good .assignment i k := by
          intro k hk he
          refine ⟨fun e => he (h2.err (next_err (h1.err e))), ?_, fun e => ?_⟩
          · rw [hk]
            refine h2.suffix.trans (List.IsSuffix.trans ?_ h1.suffix)
            rw [htk]; exact List.suffix_cons _ _
          · have e2 := not_err he e
            obtain ⟨v, b, hv, hdb⟩ := h2.derives e2
            obtain ⟨u, a, hu, hda⟩ := h1.derives (not_err next_err (not_err h2.err e2))
            have : ∃ f, Spec.AssignOp (.assign op) f := by
              cases op with
              | none => exact ⟨_, .eq⟩
              | some op => cases op with
                | op1 o => exact ⟨_, .arith o⟩
                | op2 o => exact ⟨_, .bits o⟩
            obtain ⟨f, hf⟩ := this
            exact ⟨u ++ [.assign op] ++ v, f a b, by rw [hu, htk, hv, hk]; simp,
              .assign hf hda hdb⟩
        split
        · apply key
          · rfl
          · intro e
            simp only
            cases op with
            | none => exact doAssignment_err cfg e
            | some op => exact doAssignment_err cfg (doBinaryCalculation_err cfg e)
        · exact key _ rfl id
        · exact key _ rfl (fun _ => rfl)
      · exact ⟨h1.err, h1.suffix, fun e => by
          obtain ⟨u, a, hu, hd⟩ := h1.derives e
          exact ⟨u, a, hu, .chain .assignment hd⟩⟩
    · -- conditional
      intro i
      rw [parseConditional]
      exact (ih.condLoop .invalid i).congr rfl rfl id rfl
    · -- conditional loop
      intro v i
      have h1 := ih.logicalOr i
      rw [conditionalLoop]
      dsimp only
      split
      · exact ⟨h1.err, h1.suffix, fun e => by
          obtain ⟨u, a, hu, hd⟩ := h1.derives e
          exact ⟨u, a, hu, .chain .conditional hd⟩⟩
      · rename_i ht
        simp only [ne_eq, Decidable.not_not] at ht
        have htk := tok_some ht
        generalize parseLogicalOr cfg n i = r1 at *
        obtain ⟨v1, i1⟩ := r1
        simp only at h1 htk ht ⊢
        generalize hco : coerceNumber cfg v1 i1.st = co
        have hce : i1.st.err = true → co.2.err = true := fun e => by
          rw [← hco]; exact coerceNumber_err cfg e
        generalize (i1.parseonly || !(truth cfg co.1).isSome) = s2
        generalize (truth cfg co.1).getD true = cond
        generalize hi2 : (⟨(Info.next ⟨i1.toks, i1.parseonly, co.2⟩).toks, s2 || !cond,
          (Info.next ⟨i1.toks, i1.parseonly, co.2⟩).st⟩ : Info E) = i2
        have hi2t : i2.toks = i1.next.toks := by rw [← hi2]; rfl
        have hi2e : i1.st.err = true → i2.st.err = true := fun e => by
          rw [← hi2]; exact next_err (i := { toks := i1.toks, parseonly := i1.parseonly, st := co.2 }) (hce e)
        have h2 := ih.assignment i2
        generalize parseAssignment cfg n i2 = r2 at *
        obtain ⟨v2, i3⟩ := r2
        simp only at h2 ⊢
        split
        · refine ⟨fun _ => rfl, ?_, fun e => by simp [Info.fail, St.fail] at e⟩
          refine List.IsSuffix.trans ?_ h1.suffix
          rw [htk, ← hi2t]; exact h2.suffix.trans (List.suffix_cons _ _)
        · rename_i ht2
          simp only [ne_eq, Decidable.not_not] at ht2
          have htk2 := tok_some ht2
          have h3 := ih.condLoop (if (s2 || !cond) = true then (if i.parseonly = true then v else co.1) else v2)
            { toks := i3.next.toks, parseonly := s2 || cond, st := i3.next.st }
          generalize conditionalLoop cfg n _ _ = r3 at *
          obtain ⟨v3, i4⟩ := r3
          simp only at h3 ⊢
          refine ⟨fun e => h3.err (next_err (h2.err (hi2e (h1.err e)))), ?_, fun e => ?_⟩
          · refine List.IsSuffix.trans ?_ h1.suffix
            rw [htk, ← hi2t]
            refine List.IsSuffix.trans ?_ (List.suffix_cons _ _)
            refine List.IsSuffix.trans ?_ h2.suffix
            rw [htk2]
            exact h3.suffix.trans (List.suffix_cons _ _)
          · obtain ⟨w, b, hw, hdb⟩ := h3.derives e
            have e3 := not_err (next_err (i := i3)) (not_err h3.err e)
            obtain ⟨u2, a, hu2, hda⟩ := h2.derives e3
            obtain ⟨u, c, hu, hdc⟩ := h1.derives (not_err hi2e (not_err h2.err e3))
            refine ⟨u ++ [.question] ++ u2 ++ [.colon] ++ w, .cond c a b, ?_, .cond hdc hda hdb⟩
            rw [hu, htk, ← hi2t, hu2, htk2]
            simp only at hw
            rw [hw]; simp
    · -- logical or
      intro i
      rw [parseLogicalOr]
      dsimp only
      exact ((ih.logicalAnd i).loop (ih.orLoop _ _) .logicalOr).congr rfl rfl id rfl
    · -- or loop
      intro v i
      rw [logicalOrLoop]
      dsimp only
      split
      · exact LoopGood.stop _ _
      · rename_i ht
        simp only [ne_eq, Decidable.not_not] at ht
        refine LoopGood.step ht .or (i1 := ⟨(Info.next ⟨i.toks, i.parseonly, (coerceNumber cfg v i.st).2⟩).toks,
          i.parseonly || (truth cfg (coerceNumber cfg v i.st).1).getD true,
          (Info.next ⟨i.toks, i.parseonly, (coerceNumber cfg v i.st).2⟩).st⟩) ?_ ?_
          (ih.logicalAnd _) ?_ ?_ (ih.orLoop _ _)
        · rfl
        · intro e; exact next_err (i := { toks := i.toks, parseonly := i.parseonly, st := _ }) (coerceNumber_err cfg e)
        · intro e; exact coerceNumber_err cfg e
        · rfl
    · -- logical and
      intro i
      rw [parseLogicalAnd]
      dsimp only
      exact ((ih.binary .or i).loop (ih.andLoop _ _) .logicalAnd).congr rfl rfl id rfl
    · -- and loop
      intro v i
      rw [logicalAndLoop]
      dsimp only
      split
      · exact LoopGood.stop _ _
      · rename_i ht
        simp only [ne_eq, Decidable.not_not] at ht
        refine LoopGood.step ht .and (i1 := ⟨(Info.next ⟨i.toks, i.parseonly, (coerceNumber cfg v i.st).2⟩).toks,
          i.parseonly || !(truth cfg (coerceNumber cfg v i.st).1).getD false,
          (Info.next ⟨i.toks, i.parseonly, (coerceNumber cfg v i.st).2⟩).st⟩) ?_ ?_
          (ih.binary .or _) ?_ ?_ (ih.andLoop _ _)
        · rfl
        · intro e; exact next_err (i := { toks := i.toks, parseonly := i.parseonly, st := _ }) (coerceNumber_err cfg e)
        · intro e; exact coerceNumber_err cfg e
        · rfl
    · -- binary
      intro l i
      rw [parseBinary]
      dsimp only
      have h1 : Good (operandOf l) i (match l.next with
        | some l' => parseBinary cfg n l' i
        | none => parsePrefix cfg n i).2 := by
        unfold operandOf
        split
        · exact ih.binary _ _
        · exact ih.«prefix» _
      exact h1.loop (ih.binLoop _ _ _) (chain_level l)
    · -- binary loop
      intro l v i
      rw [binaryLoop]
      dsimp only
      split
      · exact LoopGood.stop _ _
      · rename_i op ho
        rw [Option.bind_eq_some_iff] at ho
        obtain ⟨t, ht, ho⟩ := ho
        obtain ⟨f, hf⟩ := operator_binary cfg ho
        refine LoopGood.step ht hf (i1 := i.next) rfl next_err (j := (match l.next with
          | some l' => parseBinary cfg n l' i.next
          | none => parsePrefix cfg n i.next).2) ?_ ?_ ?_ (ih.binLoop _ _ _)
        · unfold operandOf
          split
          · exact ih.binary _ _
          · exact ih.«prefix» _
        · intro e; exact operator_err cfg ho e
        · rfl
    · -- prefix
      intro i
      rw [parsePrefix]
      dsimp only
      split
      · rename_i ht
        exact good_prefix .inc ht (ih.«prefix» _) (fun e => incDec_err cfg e) rfl
      · rename_i ht
        exact good_prefix .dec ht (ih.«prefix» _) (fun e => incDec_err cfg e) rfl
      · rename_i ht
        exact good_prefix .pos ht (ih.«prefix» _) (fun e => doUnary_err cfg e) rfl
      · rename_i ht
        exact good_prefix .neg ht (ih.«prefix» _) (fun e => doUnary_err cfg e) rfl
      · rename_i ht
        exact good_prefix .compl ht (ih.«prefix» _) (fun e => doUnary_err cfg e) rfl
      · rename_i ht
        exact good_prefix .not ht (ih.«prefix» _) (fun e => doUnary_err cfg e) rfl
      · have h := ih.«postfix» i
        exact ⟨h.err, h.suffix, fun e => by
          obtain ⟨u, a, hu, hd⟩ := h.derives e
          exact ⟨u, a, hu, .chain .«prefix» hd⟩⟩
    · -- postfix
      intro i
      rw [parsePostfix]
      dsimp only
      exact (ih.primary i).loop (ih.postLoop _ _) .«postfix»
    · -- postfix loop
      intro v i
      rw [postfixLoop]
      dsimp only
      split
      · rename_i ht
        exact loopGood_post (j := Info.next ⟨i.toks, i.parseonly, (incDec cfg true false v i.st).2⟩)
          (Or.inl ⟨rfl, rfl⟩) ht rfl
          (fun e => next_err (i := ⟨i.toks, i.parseonly, (incDec cfg true false v i.st).2⟩)
            (incDec_err cfg e)) (ih.postLoop _ _)
      · rename_i ht
        exact loopGood_post (j := Info.next ⟨i.toks, i.parseonly, (incDec cfg false false v i.st).2⟩)
          (Or.inr ⟨rfl, rfl⟩) ht rfl
          (fun e => next_err (i := ⟨i.toks, i.parseonly, (incDec cfg false false v i.st).2⟩)
            (incDec_err cfg e)) (ih.postLoop _ _)
      · exact LoopGood.stop _ _
    · -- primary
      intro i
      rw [parsePrimary]
      dsimp only
      split
      · rename_i ht
        have htk := tok_some ht
        have h1 := ih.assignment i.next
        split
        · rename_i ht2
          have htk2 := tok_some ht2
          refine ⟨fun e => next_err (h1.err (next_err e)), ?_, fun e => ?_⟩
          · rw [htk]
            refine List.IsSuffix.trans ?_ (List.suffix_cons _ _)
            refine List.IsSuffix.trans ?_ h1.suffix
            rw [htk2]; exact List.suffix_cons _ _
          · obtain ⟨u, a, hu, hd⟩ := h1.derives (not_err next_err e)
            refine ⟨[.lparen] ++ u ++ [.rparen], a, ?_, .paren hd⟩
            rw [htk, hu, htk2]; simp
        · refine ⟨fun _ => rfl, ?_, fun e => by simp [Info.fail, St.fail] at e⟩
          rw [htk]; exact h1.suffix.trans (List.suffix_cons _ _)
      · rename_i s ht
        have htk := tok_some ht
        refine ⟨fun e => next_err (i := { toks := i.toks, parseonly := i.parseonly, st := _ }) (parseAsNumber_err cfg e), ?_, fun e => ?_⟩
        · rw [htk]; exact List.suffix_cons _ _
        · exact ⟨[.num s], .lit s, by rw [htk]; rfl, .num s⟩
      · rename_i s ht
        have htk := tok_some ht
        refine ⟨fun e => next_err e, ?_, fun e => ?_⟩
        · rw [htk]; exact List.suffix_cons _ _
        · exact ⟨[.ident s], .var s, by rw [htk]; rfl, .ident s⟩
      · exact Good.fail _ _

end

end Yash.Arith
