import Verif.TestBuiltin.Binary
set_option autoImplicit false

namespace Yash.TestBuiltin

open Spec

abbrev HoldsM (W : World) (e : Expr) (v : Bool) : Prop := Holds W (compareVersions W) e v

/-! ### Primaries -/

theorem binaryAt_iff (w : Word) (r : List Word) :
    binaryHere r = true ↔ BinaryAt (w :: r) := by
  constructor
  · intro h
    unfold binaryHere at h
    split at h
    · rename_i op x rest
      rw [Bool.and_eq_true, isBinary_iff, ends_iff] at h
      exact ⟨w, op, x, rest, rfl, h.1, h.2⟩
    · cases h
  · rintro ⟨l, op, x, rest, e, h1, h2⟩
    cases e
    rw [binaryHere, Bool.and_eq_true, isBinary_iff, ends_iff]
    exact ⟨h1, h2⟩

theorem unaryAt_iff (w : Word) (r : List Word) :
    unaryHere w r = true ↔ UnaryAt (w :: r) := by
  constructor
  · intro h
    unfold unaryHere at h
    split at h
    · rename_i x rest
      rw [Bool.and_eq_true, isUnary_iff, ends_iff] at h
      exact ⟨w, x, rest, rfl, h.1, h.2⟩
    · cases h
  · rintro ⟨op, x, rest, e, h1, h2⟩
    cases e
    rw [unaryHere, Bool.and_eq_true, isUnary_iff, ends_iff]
    exact ⟨h1, h2⟩

theorem longPrimary_binary (W : World) (l op r : Word) (rest : List Word)
    (h : op ∈ binaryOperators) (he : Ends rest) :
    longPrimary W l (op :: r :: rest)
      = ⟨(testTriple W l op r).val, rest, (testTriple W l op r).err⟩ := by
  have := (binaryAt_iff l (op :: r :: rest)).2 ⟨l, op, r, rest, rfl, h, he⟩
  unfold longPrimary
  rw [this]

theorem longPrimary_unary (W : World) (op x : Word) (rest : List Word)
    (hb : ¬ BinaryAt (op :: x :: rest)) (h : op ∈ unaryOperators) (he : Ends rest) :
    longPrimary W op (x :: rest) = ⟨(testDouble W op x).val, rest, (testDouble W op x).err⟩ := by
  have h1 := (unaryAt_iff op (x :: rest)).2 ⟨op, x, rest, rfl, h, he⟩
  have h2 := Bool.eq_false_iff.2 (mt (binaryAt_iff op (x :: rest)).1 hb)
  unfold longPrimary
  rw [h1, h2]

theorem longPrimary_str (W : World) (w : Word) (rest : List Word)
    (hb : ¬ BinaryAt (w :: rest)) (hu : ¬ UnaryAt (w :: rest)) :
    longPrimary W w rest = ⟨testSingle w, rest, false⟩ := by
  have h1 := Bool.eq_false_iff.2 (mt (unaryAt_iff w rest).1 hu)
  have h2 := Bool.eq_false_iff.2 (mt (binaryAt_iff w rest).1 hb)
  unfold longPrimary
  rw [h1, h2]

/-- There is exactly one way to read the primary, and `longPrimary` reads it that way. -/
theorem longPrimary_cases (W : World) (w : Word) (r : List Word) :
    ∃ e rest, Primary (w :: r) e rest ∧ (longPrimary W w r).rest = rest ∧
      rest.length ≤ r.length ∧
      (∀ v, longPrimary W w r = ⟨v, rest, false⟩ ↔ HoldsM W e v) := by
  by_cases hb : BinaryAt (w :: r)
  · obtain ⟨l, op, x, rest, e, h1, h2⟩ := hb
    cases e
    refine ⟨_, rest, .binary w op x rest h1 h2, ?_, ?_, ?_⟩
    · rw [longPrimary_binary W _ _ _ _ h1 h2]
    · simp only [List.length_cons]; omega
    · intro v
      rw [longPrimary_binary W _ _ _ _ h1 h2]
      have := testTriple_binary W w op x v h1
      constructor
      · intro h
        simp only [Long.mk.injEq, true_and] at h
        have hres : testTriple W w op x = ⟨v, false⟩ := by
          obtain ⟨a, b⟩ := h
          cases ht : testTriple W w op x
          rw [ht] at a b
          dsimp only at a b
          rw [a, b]
        obtain ⟨s, hs, hbin⟩ := this.1 hres
        rw [hs]
        exact .binary _ _ s _ hbin
      · intro h
        generalize hE : Expr.binary w op x = E at h
        cases h <;> try (cases hE; done)
        rename_i l2 r2 s hbin
        cases hE
        rw [this.2 ⟨_, rfl, hbin⟩]
  · by_cases hu : UnaryAt (w :: r)
    · obtain ⟨op, x, rest, e, h1, h2⟩ := hu
      cases e
      refine ⟨_, rest, .unary w x rest hb h1 h2, ?_, ?_, ?_⟩
      · rw [longPrimary_unary W _ _ _ hb h1 h2]
      · simp only [List.length_cons]; omega
      · intro v
        rw [longPrimary_unary W _ _ _ hb h1 h2]
        have := testDouble_iff W w x v (by rintro rfl; revert h1; decide)
        constructor
        · intro h
          simp only [Long.mk.injEq, true_and] at h
          have hres : testDouble W w x = ⟨v, false⟩ := by
            obtain ⟨a, b⟩ := h
            cases ht : testDouble W w x
            rw [ht] at a b
            dsimp only at a b
            rw [a, b]
          obtain ⟨s, hs, hun⟩ := this.1 hres
          rw [hs]
          exact .unary s _ _ hun
        · intro h
          generalize hE : Expr.unary w x = E at h
          cases h <;> try (cases hE; done)
          rename_i s w2 hun
          cases hE
          rw [this.2 ⟨_, rfl, hun⟩]
    · refine ⟨_, r, .str w r hb hu, ?_, Nat.le_refl _, ?_⟩
      · rw [longPrimary_str W _ _ hb hu]
      · intro v
        rw [longPrimary_str W _ _ hb hu, testSingle_eq]
        constructor
        · intro h
          simp only [Long.mk.injEq, and_true] at h
          subst h
          exact .str w
        · intro h
          cases h
          rfl

theorem primary_longPrimary (W : World) {w : Word} {r rest : List Word} {e : Expr} {v : Bool}
    (hp : Primary (w :: r) e rest) (hv : HoldsM W e v) : longPrimary W w r = ⟨v, rest, false⟩ := by
  obtain ⟨e', rest', hp', hr, hl, h⟩ := longPrimary_cases W w r
  have : e' = e ∧ rest' = rest := by
    cases hp with
    | binary _ _ _ _ h1 h2 =>
      cases hp' with
      | binary => exact ⟨rfl, rfl⟩
      | unary _ _ _ hb => exact absurd ⟨_, _, _, _, rfl, h1, h2⟩ hb
      | str _ _ hb => exact absurd ⟨_, _, _, _, rfl, h1, h2⟩ hb
    | unary _ _ _ hb h1 h2 =>
      cases hp' with
      | binary _ _ _ _ h3 h4 => exact absurd ⟨_, _, _, _, rfl, h3, h4⟩ hb
      | unary => exact ⟨rfl, rfl⟩
      | str _ _ _ hu => exact absurd ⟨_, _, _, rfl, h1, h2⟩ hu
    | str _ _ hb hu =>
      cases hp' with
      | binary _ _ _ _ h3 h4 => exact absurd ⟨_, _, _, _, rfl, h3, h4⟩ hb
      | unary _ _ _ _ h3 h4 => exact absurd ⟨_, _, _, rfl, h3, h4⟩ hu
      | str => exact ⟨rfl, rfl⟩
  obtain ⟨rfl, rfl⟩ := this
  exact (h v).2 hv

/-! ### Fuel -/

/-- The result has no more arguments than the input. -/
def Fits (ws : List Word) (o : Option Long) : Prop := ∃ l, o = some l ∧ l.rest.length ≤ ws.length

theorem long_total (W : World) (n : Nat) :
    (∀ ws, 6 * ws.length + 6 ≤ n → Fits ws (longOr W n ws)) ∧
    (∀ l, 6 * l.rest.length + 5 ≤ n → Fits l.rest (orLoop W n l)) ∧
    (∀ ws, 6 * ws.length + 4 ≤ n → Fits ws (longAnd W n ws)) ∧
    (∀ l, 6 * l.rest.length + 3 ≤ n → Fits l.rest (andLoop W n l)) ∧
    (∀ ws, 6 * ws.length + 2 ≤ n → Fits ws (longTerm W n ws)) ∧
    (∀ ws, 6 * ws.length + 1 ≤ n → Fits ws (longFactor W n ws)) := by
  induction n with
  | zero => refine ⟨?_, ?_, ?_, ?_, ?_, ?_⟩ <;> intro _ h <;> omega
  | succ n ih =>
    obtain ⟨i1, i2, i3, i4, i5, i6⟩ := ih
    refine ⟨?_, ?_, ?_, ?_, ?_, ?_⟩
    · intro ws h
      obtain ⟨l, hl, hr⟩ := i3 ws (by omega)
      obtain ⟨l2, hl2, hr2⟩ := i2 l (by omega)
      exact ⟨l2, by rw [longOr, hl]; exact hl2, by omega⟩
    · intro l h
      rw [orLoop]
      split
      · rename_i r he hr
        rw [hr, List.length_cons] at h
        obtain ⟨l2, hl2, hr2⟩ := i3 r (by omega)
        obtain ⟨l3, hl3, hr3⟩ := i2 { l2 with val := l.val || l2.val } (by dsimp only; omega)
        dsimp only at hr3
        refine ⟨l3, by rw [hl2]; exact hl3, ?_⟩
        rw [hr, List.length_cons]
        omega
      · exact ⟨l, rfl, Nat.le_refl _⟩
    · intro ws h
      obtain ⟨l, hl, hr⟩ := i5 ws (by omega)
      obtain ⟨l2, hl2, hr2⟩ := i4 l (by omega)
      exact ⟨l2, by rw [longAnd, hl]; exact hl2, by omega⟩
    · intro l h
      rw [andLoop]
      split
      · rename_i r he hr
        rw [hr, List.length_cons] at h
        obtain ⟨l2, hl2, hr2⟩ := i5 r (by omega)
        obtain ⟨l3, hl3, hr3⟩ := i4 { l2 with val := l.val && l2.val } (by dsimp only; omega)
        dsimp only at hr3
        refine ⟨l3, by rw [hl2]; exact hl3, ?_⟩
        rw [hr, List.length_cons]
        omega
      · exact ⟨l, rfl, Nat.le_refl _⟩
    · intro ws h
      rw [longTerm.eq_def]
      dsimp only
      split
      · rename_i r
        rw [List.length_cons] at h
        obtain ⟨l, hl, hr⟩ := i6 r (by omega)
        exact ⟨_, by rw [hl], by dsimp only; rw [List.length_cons]; omega⟩
      · obtain ⟨l, hl, hr⟩ := i6 ws (by omega)
        exact ⟨{ l with val := l.val ^^ false }, by rw [hl], hr⟩
    · intro ws h
      cases ws with
      | nil => exact ⟨_, by rw [longFactor], Nat.le_refl _⟩
      | cons w r =>
        rw [List.length_cons] at h
        rw [longFactor]
        split
        · obtain ⟨l, hl, hr⟩ := i1 r (by omega)
          rw [hl]
          dsimp only
          split
          · rename_i r2 e
            rw [e, List.length_cons] at hr
            exact ⟨_, rfl, by dsimp only; rw [List.length_cons]; omega⟩
          · exact ⟨_, rfl, by dsimp only; rw [List.length_cons]; omega⟩
        · obtain ⟨e, rest, _, h1, h2, _⟩ := longPrimary_cases W w r
          exact ⟨_, rfl, by rw [h1, List.length_cons]; omega⟩

/-! ### Soundness: what is accepted is derived -/

theorem long_sound (W : World) (n : Nat) :
    (∀ ws v rest, longOr W n ws = some ⟨v, rest, false⟩ → ∃ e, Or ws e rest ∧ HoldsM W e v) ∧
    (∀ ws e u mid v rest, Or ws e mid → HoldsM W e u →
      orLoop W n ⟨u, mid, false⟩ = some ⟨v, rest, false⟩ → ∃ e, Or ws e rest ∧ HoldsM W e v) ∧
    (∀ ws v rest, longAnd W n ws = some ⟨v, rest, false⟩ → ∃ e, And ws e rest ∧ HoldsM W e v) ∧
    (∀ ws e u mid v rest, And ws e mid → HoldsM W e u →
      andLoop W n ⟨u, mid, false⟩ = some ⟨v, rest, false⟩ → ∃ e, And ws e rest ∧ HoldsM W e v) ∧
    (∀ ws v rest, longTerm W n ws = some ⟨v, rest, false⟩ → ∃ e, Term ws e rest ∧ HoldsM W e v) ∧
    (∀ ws v rest, longFactor W n ws = some ⟨v, rest, false⟩ →
      ∃ e, Factor ws e rest ∧ HoldsM W e v) ∧
    (∀ u mid v rest, orLoop W n ⟨u, mid, true⟩ ≠ some ⟨v, rest, false⟩) ∧
    (∀ u mid v rest, andLoop W n ⟨u, mid, true⟩ ≠ some ⟨v, rest, false⟩) := by
  induction n with
  | zero =>
    refine ⟨?_, ?_, ?_, ?_, ?_, ?_, ?_, ?_⟩ <;> intros <;>
      simp_all [longOr, orLoop, longAnd, andLoop, longTerm, longFactor]
  | succ n ih =>
    obtain ⟨i1, i2, i3, i4, i5, i6, i7, i8⟩ := ih
    refine ⟨?_, ?_, ?_, ?_, ?_, ?_, ?_, ?_⟩
    · intro ws v rest h
      rw [longOr] at h
      cases hl : longAnd W n ws with
      | none => rw [hl] at h; cases h
      | some l =>
        rw [hl] at h
        obtain ⟨u, mid, err⟩ := l
        dsimp only at h
        cases err with
        | true => exact absurd h (i7 _ _ _ _)
        | false =>
          obtain ⟨e, he, hu⟩ := i3 _ _ _ hl
          exact i2 ws e u mid v rest (.one _ _ _ he) hu h
    · intro ws e u mid v rest ho hu h
      rw [orLoop.eq_def] at h
      dsimp only at h
      split at h
      · rename_i r _
        cases hl : longAnd W n r with
        | none => rw [hl] at h; cases h
        | some l2 =>
          rw [hl] at h
          obtain ⟨u2, mid2, err⟩ := l2
          dsimp only at h
          cases err with
          | true => exact absurd h (i7 _ _ _ _)
          | false =>
            obtain ⟨f, hf, hu2⟩ := i3 _ _ _ hl
            exact i2 ws (.or e f) _ mid2 v rest (.more _ _ _ _ _ ho hf) (.or _ _ _ _ hu hu2) h
      · cases h
        exact ⟨e, ho, hu⟩
    · intro ws v rest h
      rw [longAnd] at h
      cases hl : longTerm W n ws with
      | none => rw [hl] at h; cases h
      | some l =>
        rw [hl] at h
        obtain ⟨u, mid, err⟩ := l
        dsimp only at h
        cases err with
        | true => exact absurd h (i8 _ _ _ _)
        | false =>
          obtain ⟨e, he, hu⟩ := i5 _ _ _ hl
          exact i4 ws e u mid v rest (.one _ _ _ he) hu h
    · intro ws e u mid v rest ho hu h
      rw [andLoop.eq_def] at h
      dsimp only at h
      split at h
      · rename_i r _
        cases hl : longTerm W n r with
        | none => rw [hl] at h; cases h
        | some l2 =>
          rw [hl] at h
          obtain ⟨u2, mid2, err⟩ := l2
          dsimp only at h
          cases err with
          | true => exact absurd h (i8 _ _ _ _)
          | false =>
            obtain ⟨f, hf, hu2⟩ := i5 _ _ _ hl
            exact i4 ws (.and e f) _ mid2 v rest (.more _ _ _ _ _ ho hf) (.and _ _ _ _ hu hu2) h
      · cases h
        exact ⟨e, ho, hu⟩
    · intro ws v rest h
      rw [longTerm.eq_def] at h
      dsimp only at h
      split at h
      · rename_i r
        cases hl : longFactor W n r with
        | none => rw [hl] at h; cases h
        | some l =>
          rw [hl] at h
          obtain ⟨u, mid, err⟩ := l
          cases h
          obtain ⟨e, he, hu⟩ := i6 _ _ _ hl
          refine ⟨_, .not _ _ _ he, ?_⟩
          rw [Bool.xor_true]
          exact .not _ _ hu
      · rename_i hne
        cases hl : longFactor W n ws with
        | none => rw [hl] at h; cases h
        | some l =>
          rw [hl] at h
          obtain ⟨u, mid, err⟩ := l
          cases h
          obtain ⟨e, he, hu⟩ := i6 _ _ _ hl
          refine ⟨_, .plain _ _ _ ?_ he, by rw [Bool.xor_false]; exact hu⟩
          intro hh
          cases ws with
          | nil => cases hh
          | cons w r => cases hh; exact hne r rfl
    · intro ws v rest h
      cases ws with
      | nil => rw [longFactor] at h; cases h
      | cons w r =>
        rw [longFactor] at h
        split at h
        · rename_i hw
          subst hw
          cases hl : longOr W n r with
          | none => rw [hl] at h; cases h
          | some l =>
            rw [hl] at h
            obtain ⟨u, mid, err⟩ := l
            dsimp only at h
            split at h
            · cases h
              obtain ⟨e, he, hu⟩ := i1 _ _ _ hl
              exact ⟨e, .paren _ _ _ he, hu⟩
            · cases h
        · rename_i hw
          obtain ⟨e, rest', hp, h1, _, h2⟩ := longPrimary_cases W w r
          have h := Option.some.inj h
          rw [h] at h1
          dsimp only at h1
          subst h1
          exact ⟨e, .primary _ _ _ (by simpa using hw) hp, (h2 v).1 h⟩
    · intro u mid v rest h
      rw [orLoop] at h
      cases h
    · intro u mid v rest h
      rw [andLoop] at h
      cases h

/-! ### Completeness: what is derived is accepted -/

theorem andLoop_stop (W : World) (m : Nat) (v : Bool) (rest : List Word)
    (h : rest.head? ≠ some ['-', 'a']) :
    andLoop W (m + 1) ⟨v, rest, false⟩ = some ⟨v, rest, false⟩ := by
  rw [andLoop.eq_def]
  dsimp only
  split
  · exact absurd rfl h
  · rfl

theorem orLoop_stop (W : World) (m : Nat) (v : Bool) (rest : List Word)
    (h : rest.head? ≠ some ['-', 'o']) :
    orLoop W (m + 1) ⟨v, rest, false⟩ = some ⟨v, rest, false⟩ := by
  rw [orLoop.eq_def]
  dsimp only
  split
  · exact absurd rfl h
  · rfl

mutual

theorem or_complete (W : World) {ws rest : List Word} {e : Expr} (h : Or ws e rest) (v : Bool)
    (hv : HoldsM W e v) (hr : rest.head? ≠ some ['-', 'a']) (n : Nat)
    (hn : 6 * ws.length + 6 ≤ n) : rest.length ≤ ws.length ∧
    ∃ m, 6 * rest.length + 5 ≤ m ∧ longOr W n ws = orLoop W m ⟨v, rest, false⟩ := by
  match n, h with
  | 0, _ => omega
  | n + 1, .one _ _ _ ha =>
    obtain ⟨hl, m, hm, he⟩ := and_complete W ha v hv n (by omega)
    refine ⟨hl, n, by omega, ?_⟩
    rw [longOr, he]
    cases m with
    | zero => omega
    | succ m =>
      rw [andLoop_stop W m v rest hr]
  | n + 1, .more _ e1 mid f _ ho ha =>
    cases hv with
    | or _ _ u w hu hw =>
      obtain ⟨hl, m, hm, he⟩ := or_complete W ho u hu (by simp) (n + 1) hn
      rw [List.length_cons] at hl hm
      cases m with
      | zero => omega
      | succ m =>
        obtain ⟨hl2, m2, hm2, he2⟩ := and_complete W ha w hw m (by omega)
        refine ⟨by omega, m, by omega, ?_⟩
        rw [he]
        rw [show orLoop W (m + 1) ⟨u, "-o".toList :: mid, false⟩
          = match longAnd W m mid with
            | none => none
            | some l2 => orLoop W m { l2 with val := u || l2.val } from rfl]
        rw [he2]
        cases m2 with
        | zero => omega
        | succ m2 => rw [andLoop_stop W m2 w rest hr]

theorem and_complete (W : World) {ws rest : List Word} {e : Expr} (h : And ws e rest) (v : Bool)
    (hv : HoldsM W e v) (n : Nat) (hn : 6 * ws.length + 4 ≤ n) : rest.length ≤ ws.length ∧
    ∃ m, 6 * rest.length + 3 ≤ m ∧ longAnd W n ws = andLoop W m ⟨v, rest, false⟩ := by
  match n, h with
  | 0, _ => omega
  | n + 1, .one _ _ _ ht =>
    obtain ⟨hl, he⟩ := term_complete W ht v hv n (by omega)
    exact ⟨hl, n, by omega, by rw [longAnd, he]⟩
  | n + 1, .more _ e1 mid f _ ho ha =>
    cases hv with
    | and _ _ u w hu hw =>
      obtain ⟨hl, m, hm, he⟩ := and_complete W ho u hu (n + 1) hn
      rw [List.length_cons] at hl hm
      cases m with
      | zero => omega
      | succ m =>
        obtain ⟨hl2, he2⟩ := term_complete W ha w hw m (by omega)
        refine ⟨by omega, m, by omega, ?_⟩
        rw [he]
        rw [show andLoop W (m + 1) ⟨u, "-a".toList :: mid, false⟩
          = match longTerm W m mid with
            | none => none
            | some l2 => andLoop W m { l2 with val := u && l2.val } from rfl]
        rw [he2]

theorem term_complete (W : World) {ws rest : List Word} {e : Expr} (h : Term ws e rest) (v : Bool)
    (hv : HoldsM W e v) (n : Nat) (hn : 6 * ws.length + 2 ≤ n) : rest.length ≤ ws.length ∧
    longTerm W n ws = some ⟨v, rest, false⟩ := by
  match n, h with
  | 0, _ => omega
  | n + 1, .not ws' e' _ hf =>
    rw [List.length_cons] at hn
    cases hv with
    | not _ u hu =>
      obtain ⟨hl, he⟩ := factor_complete W hf u hu n (by omega)
      refine ⟨by rw [List.length_cons]; omega, ?_⟩
      rw [show longTerm W (n + 1) ("!".toList :: ws') = match longFactor W n ws' with
        | none => none
        | some l => some { l with val := l.val ^^ true } from rfl, he]
      simp
  | n + 1, .plain _ _ _ hne hf =>
    obtain ⟨hl, he⟩ := factor_complete W hf v hv n (by omega)
    refine ⟨hl, ?_⟩
    rw [longTerm.eq_def]
    dsimp only
    split
    · exact absurd rfl hne
    · rw [he]; simp

theorem factor_complete (W : World) {ws rest : List Word} {e : Expr} (h : Factor ws e rest)
    (v : Bool) (hv : HoldsM W e v) (n : Nat) (hn : 6 * ws.length + 1 ≤ n) :
    rest.length ≤ ws.length ∧ longFactor W n ws = some ⟨v, rest, false⟩ := by
  match n, h with
  | 0, _ => omega
  | n + 1, .paren ws' _ _ ho =>
    rw [List.length_cons] at hn
    obtain ⟨hl, m, hm, he⟩ := or_complete W ho v hv (by simp) n (by omega)
    rw [List.length_cons] at hl hm
    refine ⟨by rw [List.length_cons]; omega, ?_⟩
    rw [longFactor, if_pos (by rfl), he]
    cases m with
    | zero => omega
    | succ m => rw [orLoop_stop W m v _ (by simp)]; rfl
  | n + 1, .primary ws' _ _ hne hp =>
    cases ws' with
    | nil => cases hp
    | cons w r =>
      have := primary_longPrimary W hp hv
      obtain ⟨_, rest', _, h1, h2, _⟩ := longPrimary_cases W w r
      rw [this] at h1
      dsimp only at h1
      refine ⟨by rw [List.length_cons, h1]; omega, ?_⟩
      rw [longFactor, if_neg (by simpa using hne), this]

end

end Yash.TestBuiltin
