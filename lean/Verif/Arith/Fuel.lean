import Verif.Arith.Sound
/-!
# The fuel of the parser model does not matter
-/
set_option autoImplicit false

namespace Yash.Arith

open Spec (NT)

section
variable {D E : Type} (cfg : Cfg D E)

structure Stable (n : Nat) : Prop where
  assignment : ∀ i : Info E, 20 * i.toks.length + 20 ≤ n →
    parseAssignment cfg (n + 1) i = parseAssignment cfg n i
  conditional : ∀ i : Info E, 20 * i.toks.length + 19 ≤ n →
    parseConditional cfg (n + 1) i = parseConditional cfg n i
  condLoop : ∀ v (i : Info E), 20 * i.toks.length + 18 ≤ n →
    conditionalLoop cfg (n + 1) v i = conditionalLoop cfg n v i
  logicalOr : ∀ i : Info E, 20 * i.toks.length + 17 ≤ n →
    parseLogicalOr cfg (n + 1) i = parseLogicalOr cfg n i
  orLoop : ∀ v (i : Info E), 20 * i.toks.length + 1 ≤ n →
    logicalOrLoop cfg (n + 1) v i = logicalOrLoop cfg n v i
  logicalAnd : ∀ i : Info E, 20 * i.toks.length + 16 ≤ n →
    parseLogicalAnd cfg (n + 1) i = parseLogicalAnd cfg n i
  andLoop : ∀ v (i : Info E), 20 * i.toks.length + 1 ≤ n →
    logicalAndLoop cfg (n + 1) v i = logicalAndLoop cfg n v i
  binary : ∀ l (i : Info E), 20 * i.toks.length + 20 ≤ n + rank (ntOf l) →
    parseBinary cfg (n + 1) l i = parseBinary cfg n l i
  binLoop : ∀ l v (i : Info E), 20 * i.toks.length + 1 ≤ n →
    binaryLoop cfg (n + 1) l v i = binaryLoop cfg n l v i
  «prefix» : ∀ i : Info E, 20 * i.toks.length + 7 ≤ n →
    parsePrefix cfg (n + 1) i = parsePrefix cfg n i
  «postfix» : ∀ i : Info E, 20 * i.toks.length + 6 ≤ n →
    parsePostfix cfg (n + 1) i = parsePostfix cfg n i
  postLoop : ∀ v (i : Info E), 20 * i.toks.length + 1 ≤ n →
    postfixLoop cfg (n + 1) v i = postfixLoop cfg n v i
  primary : ∀ i : Info E, 20 * i.toks.length + 5 ≤ n →
    parsePrimary cfg (n + 1) i = parsePrimary cfg n i

theorem tok_length {i : Info E} {t : Tok} (h : i.tok = some t) :
    i.next.toks.length + 1 = i.toks.length := by
  rw [tok_some h]; simp

theorem next_toks (i : Info E) (st : St E) :
    (Info.next ⟨i.toks, i.parseonly, st⟩).toks = i.next.toks := rfl

theorem rank_level (l : Level) : 5 ≤ rank (ntOf l) ∧ rank (ntOf l) ≤ 12 := by
  cases l <;> decide

theorem rank_next {l l' : Level} (h : l.next = some l') : rank (ntOf l') = rank (ntOf l) + 1 := by
  cases l <;> cases h <;> rfl

theorem rank_last {l : Level} (h : l.next = none) : rank (ntOf l) = 12 := by
  cases l <;> cases h <;> rfl

theorem stable (n : Nat) : Stable cfg n := by
  induction n with
  | zero =>
    refine ⟨?_, ?_, ?_, ?_, ?_, ?_, ?_, ?_, ?_, ?_, ?_, ?_, ?_⟩
    case refine_8 => intro l i h; have := rank_level l; omega
    all_goals intros; omega
  | succ n ih =>
    have so := sound cfg n
    refine ⟨?_, ?_, ?_, ?_, ?_, ?_, ?_, ?_, ?_, ?_, ?_, ?_, ?_⟩
    · intro i h
      conv => lhs; rw [parseAssignment]
      conv => rhs; rw [parseAssignment]
      rw [ih.conditional i (by omega)]
      have hl := (so.conditional i).suffix.length_le
      generalize parseConditional cfg n i = r at *
      obtain ⟨v, j⟩ := r
      dsimp only at hl ⊢
      split
      · rename_i op ht
        have := tok_length ht
        rw [ih.assignment _ (by omega)]
      · rfl
    · intro i h
      conv => lhs; rw [parseConditional]
      conv => rhs; rw [parseConditional]
      rw [ih.condLoop _ i (by omega)]
    · intro v i h
      conv => lhs; rw [conditionalLoop]
      conv => rhs; rw [conditionalLoop]
      rw [ih.logicalOr i (by omega)]
      have hl := (so.logicalOr i).suffix.length_le
      generalize parseLogicalOr cfg n i = r at *
      obtain ⟨v, j⟩ := r
      dsimp only at hl ⊢
      split
      · rfl
      · rename_i ht
        simp only [ne_eq, Decidable.not_not] at ht
        have h1 := tok_length ht
        have h2 := next_toks j (coerceNumber cfg v j.st).2
        generalize hk : (⟨(Info.next ⟨j.toks, j.parseonly, (coerceNumber cfg v j.st).2⟩).toks, _, _⟩ : Info E) = k
        have hkt : k.toks.length = j.next.toks.length := by rw [← hk]; rfl
        rw [ih.assignment k (by omega)]
        have hl2 := (so.assignment k).suffix.length_le
        generalize parseAssignment cfg n k = r2 at *
        obtain ⟨v2, i3⟩ := r2
        dsimp only at hl2 ⊢
        split
        · rfl
        · rename_i ht3
          simp only [ne_eq, Decidable.not_not] at ht3
          have h3 := tok_length ht3
          rw [ih.condLoop]
          simp only; omega
    · intro i h
      conv => lhs; rw [parseLogicalOr]
      conv => rhs; rw [parseLogicalOr]
      rw [ih.logicalAnd i (by omega)]
      have hl := (so.logicalAnd i).suffix.length_le
      generalize parseLogicalAnd cfg n i = r at *
      obtain ⟨v, j⟩ := r
      dsimp only at hl ⊢
      rw [ih.orLoop _ _ (by omega)]
    · intro v i h
      conv => lhs; rw [logicalOrLoop]
      conv => rhs; rw [logicalOrLoop]
      split
      · rfl
      · rename_i ht
        simp only [ne_eq, Decidable.not_not] at ht
        have h1 := tok_length ht
        dsimp only
        generalize hk : (⟨(Info.next ⟨i.toks, i.parseonly, (coerceNumber cfg v i.st).2⟩).toks, _, _⟩ : Info E) = k
        have hkt : k.toks.length = i.next.toks.length := by rw [← hk]; rfl
        rw [ih.logicalAnd k (by omega)]
        have hl2 := (so.logicalAnd k).suffix.length_le
        rw [ih.orLoop]
        simp only; omega
    · intro i h
      conv => lhs; rw [parseLogicalAnd]
      conv => rhs; rw [parseLogicalAnd]
      rw [ih.binary .or i (by simp only [ntOf, rank]; omega)]
      have hl := (so.binary .or i).suffix.length_le
      generalize parseBinary cfg n .or i = r at *
      obtain ⟨v, j⟩ := r
      dsimp only at hl ⊢
      rw [ih.andLoop _ _ (by omega)]
    · intro v i h
      conv => lhs; rw [logicalAndLoop]
      conv => rhs; rw [logicalAndLoop]
      split
      · rfl
      · rename_i ht
        simp only [ne_eq, Decidable.not_not] at ht
        have h1 := tok_length ht
        dsimp only
        generalize hk : (⟨(Info.next ⟨i.toks, i.parseonly, (coerceNumber cfg v i.st).2⟩).toks, _, _⟩ : Info E) = k
        have hkt : k.toks.length = i.next.toks.length := by rw [← hk]; rfl
        rw [ih.binary .or k (by simp only [ntOf, rank]; omega)]
        have hl2 := (so.binary .or k).suffix.length_le
        rw [ih.andLoop]
        simp only; omega
    · intro l i h
      have hr := rank_level l
      conv => lhs; rw [parseBinary]
      conv => rhs; rw [parseBinary]
      cases hl : l.next with
      | some l' =>
        have := rank_next hl
        dsimp only
        rw [ih.binary l' i (by omega)]
        have hl2 := (so.binary l' i).suffix.length_le
        rw [ih.binLoop _ _ _ (by omega)]
      | none =>
        have := rank_last hl
        dsimp only
        rw [ih.«prefix» i (by omega)]
        have hl2 := (so.«prefix» i).suffix.length_le
        rw [ih.binLoop _ _ _ (by omega)]
    · intro l v i h
      have hr := rank_level l
      conv => lhs; rw [binaryLoop]
      conv => rhs; rw [binaryLoop]
      split
      · rfl
      · rename_i op ho
        rw [Option.bind_eq_some_iff] at ho
        obtain ⟨t, ht, ho⟩ := ho
        have h1 := tok_length ht
        cases hl : l.next with
        | some l' =>
          have := rank_next hl
          dsimp only
          rw [ih.binary l' i.next (by omega)]
          have hl2 := (so.binary l' i.next).suffix.length_le
          rw [ih.binLoop]
          simp only; omega
        | none =>
          have := rank_last hl
          dsimp only
          rw [ih.«prefix» i.next (by omega)]
          have hl2 := (so.«prefix» i.next).suffix.length_le
          rw [ih.binLoop]
          simp only; omega
    · intro i h
      conv => lhs; rw [parsePrefix]
      conv => rhs; rw [parsePrefix]
      split
      all_goals first
        | (rename_i ht; have h1 := tok_length ht; rw [ih.«prefix» _ (by omega)]; done)
        | rw [ih.«postfix» _ (by omega)]
    · intro i h
      conv => lhs; rw [parsePostfix]
      conv => rhs; rw [parsePostfix]
      rw [ih.primary i (by omega)]
      have hl2 := (so.primary i).suffix.length_le
      dsimp only
      rw [ih.postLoop _ _ (by omega)]
    · intro v i h
      conv => lhs; rw [postfixLoop]
      conv => rhs; rw [postfixLoop]
      split
      · rename_i ht; have h1 := tok_length ht
        dsimp only
        rw [ih.postLoop]
        rw [next_toks]; omega
      · rename_i ht; have h1 := tok_length ht
        dsimp only
        rw [ih.postLoop]
        rw [next_toks]; omega
      · rfl
    · intro i h
      conv => lhs; rw [parsePrimary]
      conv => rhs; rw [parsePrimary]
      cases ht : i.tok with
      | none => rfl
      | some t =>
        cases t with
        | lparen =>
          have h1 := tok_length ht
          dsimp only
          rw [ih.assignment _ (by omega)]
        | _ => rfl

/-- The model's fuel does not limit the parser: any larger amount gives the same result. -/
theorem fuel_enough (i : Info E) {n : Nat} (h : fuelFor i.toks ≤ n) :
    parseAssignment cfg n i = parseAssignment cfg (fuelFor i.toks) i := by
  induction n with
  | zero => simp [fuelFor] at h
  | succ n ih =>
    by_cases hn : fuelFor i.toks ≤ n
    · rw [(stable cfg n).assignment i (by simp only [fuelFor] at hn; omega), ih hn]
    · have : n + 1 = fuelFor i.toks := by omega
      rw [this]

end

end Yash.Arith
