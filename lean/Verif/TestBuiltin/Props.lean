import Verif.TestBuiltin.Version
/-!
# Properties of the `test` built-in (C21, C22, C23)
-/
set_option autoImplicit false

namespace Yash.TestBuiltin

open Spec

/-! ### Arguments -/

theorem testDouble_means (W : World) (a b : Word) (v : Bool) :
    testDouble W a b = ⟨v, false⟩ ↔ Means W (compareVersions W) [a, b] v := by
  by_cases ha : a = ['!']
  · subst ha
    rw [testDouble, if_pos rfl, ok_iff, testSingle_eq]
    constructor
    · rintro rfl
      have : (!decide (b ≠ [])) = decide (b = []) := by simp
      rw [this]
      exact .twoNot b
    · intro h
      generalize hl : [['!'], b] = l at h
      cases h <;> try (cases hl; done)
      · cases hl
        simp
      · rename_i op a hu
        injection hl with h1 _
        have := unary_mem hu
        rw [← h1] at this
        exact absurd this (by decide)
      · rename_i h _ _
        rw [← hl] at h
        simp at h
  · rw [testDouble_iff W a b v ha]
    constructor
    · rintro ⟨s, rfl, h⟩
      exact .twoUnary s b v h
    · intro h
      generalize hl : [a, b] = l at h
      cases h <;> try (cases hl; done)
      · cases hl
        exact absurd rfl ha
      · rename_i op a hu
        cases hl
        exact ⟨op, rfl, hu⟩
      · rename_i h _ _
        rw [← hl] at h
        simp at h

theorem res_not_iff (r : Res) (v : Bool) : r.not = ⟨v, false⟩ ↔ r = ⟨!v, false⟩ := by
  obtain ⟨a, b⟩ := r
  cases a <;> cases b <;> cases v <;> decide

theorem testTriple_means (W : World) (a b c : Word) (v : Bool) :
    testTriple W a b c = ⟨v, false⟩ ↔ Means W (compareVersions W) [a, b, c] v := by
  have inv : Means W (compareVersions W) [a, b, c] v →
      Triple W (compareVersions W) a b c v ∨
      (a = ['!'] ∧ b ∉ binaryOperators3 ∧ Means W (compareVersions W) [b, c] (!v)) ∨
      (a = ['('] ∧ c = [')'] ∧ b ∉ binaryOperators3 ∧ v = decide (b ≠ [])) := by
    intro h
    generalize hl : [a, b, c] = l at h
    cases h <;> try (cases hl; done)
    · rename_i h
      cases hl
      exact .inl h
    · rename_i h1 h2
      cases hl
      exact .inr (.inl ⟨rfl, h1, by simpa using h2⟩)
    · rename_i h1
      cases hl
      exact .inr (.inr ⟨rfl, rfl, h1, rfl⟩)
    · rename_i h _ _
      rw [← hl] at h
      simp at h
  rw [testTriple]
  cases hb : binaryOperator W a b c with
  | some res =>
    dsimp only
    have hm : b ∈ binaryOperators3 := by
      by_cases hm : b ∈ binaryOperators3
      · exact hm
      · rw [(binaryOperator_none W a b c).2 hm] at hb; cases hb
    rw [← Option.some_inj, ← hb, binaryOperator_iff]
    constructor
    · intro h
      exact .threeBinary _ _ _ _ h
    · intro h
      rcases inv h with h | ⟨_, h, _⟩ | ⟨_, _, h, _⟩
      · exact h
      · exact absurd hm h
      · exact absurd hm h
  | none =>
    have hm := (binaryOperator_none W a b c).1 hb
    dsimp only
    by_cases ha : a = ['!']
    · rw [if_pos ha, res_not_iff, testDouble_means]
      subst ha
      constructor
      · intro h
        have := Means.threeNot (W := W) b c (!v) hm h
        simpa using this
      · intro h
        rcases inv h with h | ⟨_, _, h⟩ | ⟨h, _⟩
        · exact absurd (triple_mem h) hm
        · exact h
        · cases h
    · rw [if_neg ha]
      by_cases hp : a = ['('] ∧ c = [')']
      · rw [if_pos hp, ok_iff, testSingle_eq]
        obtain ⟨rfl, rfl⟩ := hp
        constructor
        · rintro rfl
          exact .threeParen b hm
        · intro h
          rcases inv h with h | ⟨h, _⟩ | ⟨_, _, _, h⟩
          · exact absurd (triple_mem h) hm
          · exact absurd h ha
          · exact h
      · rw [if_neg hp]
        constructor
        · intro h; cases h
        · intro h
          rcases inv h with h | ⟨h, _⟩ | ⟨h1, h2, _⟩
          · exact absurd (triple_mem h) hm
          · exact absurd h ha
          · exact absurd ⟨h1, h2⟩ hp

theorem testLong_iff (W : World) (args : List Word) (v : Bool) :
    testLong W args = ⟨v, false⟩ ↔
      ∃ e, Or args e [] ∧ Holds W (compareVersions W) e v := by
  obtain ⟨l, hl, _⟩ := (long_total W (fuelFor args)).1 args (Nat.le_refl _)
  constructor
  · intro h
    rw [testLong, hl] at h
    obtain ⟨u, rest, err⟩ := l
    simp only [Res.mk.injEq, Bool.or_eq_false_iff, Bool.not_eq_false',
      List.isEmpty_iff] at h
    obtain ⟨rfl, rfl, rfl⟩ := h
    exact (long_sound W (fuelFor args)).1 args u [] hl
  · rintro ⟨e, ho, hv⟩
    obtain ⟨_, m, hm, he⟩ := or_complete W ho v hv (by simp) (fuelFor args) (Nat.le_refl _)
    cases m with
    | zero => omega
    | succ m =>
      rw [orLoop_stop W m v [] (by simp)] at he
      rw [testLong, he]
      rfl

theorem testArgs_means (W : World) (args : List Word) (v : Bool) :
    testArgs W args = ⟨v, false⟩ ↔ Means W (compareVersions W) args v := by
  match args with
  | [] =>
    rw [testArgs, ok_iff]
    constructor
    · rintro rfl; exact .none
    · intro h
      generalize hl : ([] : List Word) = l at h
      cases h <;> first | rfl | (cases hl; done) | skip
      rename_i h _ _; rw [← hl] at h; simp at h
  | [a] =>
    rw [testArgs, ok_iff, testSingle_eq]
    constructor
    · rintro rfl; exact .one a
    · intro h
      generalize hl : [a] = l at h
      cases h <;> try (cases hl; done)
      · cases hl; rfl
      · rename_i h _ _; rw [← hl] at h; simp at h
  | [a, b] => exact testDouble_means W a b v
  | [a, b, c] => exact testTriple_means W a b c v
  | [a, b, c, d] =>
    have inv : Means W (compareVersions W) [a, b, c, d] v →
        (a = ['!'] ∧ Means W (compareVersions W) [b, c, d] (!v)) ∨
        (a = ['('] ∧ d = [')'] ∧ Means W (compareVersions W) [b, c] v) ∨
        (a ≠ ['!'] ∧ ¬ (a = ['('] ∧ d = [')']) ∧
          ∃ e, Or [a, b, c, d] e [] ∧ Holds W (compareVersions W) e v) := by
      intro h
      generalize hl : [a, b, c, d] = l at h
      cases h <;> try (cases hl; done)
      · rename_i h
        cases hl
        exact .inl ⟨rfl, by simpa using h⟩
      · rename_i h
        cases hl
        exact .inr (.inl ⟨rfl, rfl, h⟩)
      · rename_i h1 h2 h3 h4
        cases hl
        exact .inr (.inr ⟨h1, h2, _, h3, h4⟩)
      · rename_i h _ _
        rw [← hl] at h
        simp at h
    rw [testArgs]
    by_cases ha : a = ['!']
    · rw [if_pos ha, res_not_iff, testTriple_means]
      subst ha
      constructor
      · intro h
        have := Means.fourNot (W := W) b c d (!v) h
        simpa using this
      · intro h
        rcases inv h with ⟨_, h⟩ | ⟨h, _⟩ | ⟨h, _⟩
        · exact h
        · cases h
        · exact absurd rfl h
    · rw [if_neg ha]
      by_cases hp : a = ['('] ∧ d = [')']
      · rw [if_pos hp, testDouble_means]
        obtain ⟨rfl, rfl⟩ := hp
        constructor
        · exact fun h => .fourParen b c v h
        · intro h
          rcases inv h with ⟨h, _⟩ | ⟨_, _, h⟩ | ⟨_, h, _⟩
          · cases h
          · exact h
          · exact absurd ⟨rfl, rfl⟩ h
      · rw [if_neg hp, testLong_iff]
        constructor
        · rintro ⟨e, h1, h2⟩
          exact .four a b c d e v ha hp h1 h2
        · intro h
          rcases inv h with ⟨h, _⟩ | ⟨h1, h2, _⟩ | ⟨_, _, h⟩
          · exact absurd h ha
          · exact absurd ⟨h1, h2⟩ hp
          · exact h
  | a :: b :: c :: d :: x :: r =>
    rw [testArgs.eq_def]
    dsimp only
    rw [testLong_iff]
    constructor
    · rintro ⟨e, h1, h2⟩
      exact .long _ e v (by simp) h1 h2
    · intro h
      generalize hl : a :: b :: c :: d :: x :: r = l at h
      cases h <;> try (cases hl; done)
      rename_i h1 h2 h3
      exact ⟨_, h2, h3⟩

theorem status_zero (r : Res) : r.status = 0 ↔ r = ⟨true, false⟩ := by
  obtain ⟨a, b⟩ := r; cases a <;> cases b <;> decide

theorem status_one (r : Res) : r.status = 1 ↔ r = ⟨false, false⟩ := by
  obtain ⟨a, b⟩ := r; cases a <;> cases b <;> decide

theorem status_two (r : Res) : r.status = 2 ↔ r.err = true := by
  obtain ⟨a, b⟩ := r; cases a <;> cases b <;> decide

theorem status_cases (r : Res) : r.status = 0 ∨ r.status = 1 ∨ r.status = 2 := by
  obtain ⟨a, b⟩ := r; cases a <;> cases b <;> decide

/-- **C21**: `test args` succeeds exactly if the arguments mean "true", fails with 1 exactly if
they mean "false" (by the POSIX rules on the number of arguments, `Spec.Means`), and otherwise
returns 2; it returns 2 exactly when an error message is printed. -/
theorem C21_test (W : World) (args : List Word) :
    ((testBuiltin W "test".toList args).1 = 0 ↔ Means W (compareVersions W) args true) ∧
    ((testBuiltin W "test".toList args).1 = 1 ↔ Means W (compareVersions W) args false) ∧
    ((testBuiltin W "test".toList args).1 = 2 ↔ ¬ ∃ v, Means W (compareVersions W) args v) ∧
    ((testBuiltin W "test".toList args).1 = 2 ↔ (testBuiltin W "test".toList args).2 = true) := by
  have e : testBuiltin W "test".toList args = ((testArgs W args).status, (testArgs W args).err) := by
    rw [testBuiltin, if_neg (by decide)]
  rw [e]
  dsimp only
  have h0 := (status_zero (testArgs W args)).trans (testArgs_means W args true)
  have h1 := (status_one (testArgs W args)).trans (testArgs_means W args false)
  refine ⟨h0, h1, ?_, status_two _⟩
  constructor
  · rintro h2 ⟨v, hv⟩
    cases v with
    | true => have := h0.2 hv; omega
    | false => have := h1.2 hv; omega
  · intro hn
    rcases status_cases (testArgs W args) with h | h | h
    · exact absurd ⟨_, h0.1 h⟩ hn
    · exact absurd ⟨_, h1.1 h⟩ hn
    · exact h

/-- **C21** for `[`: the last argument must be `]` and does not belong to the expression. -/
theorem C21_bracket (W : World) (args : List Word) :
    testBuiltin W "[".toList (args ++ ["]".toList]) = testBuiltin W "test".toList args ∧
    (args.getLast? ≠ some "]".toList → testBuiltin W "[".toList args = (2, true)) := by
  constructor
  · rw [testBuiltin, testBuiltin, if_pos (by rfl), if_neg (by decide)]
    simp
  · intro h
    rw [testBuiltin, if_pos (by rfl)]
    cases hl : args.getLast? with
    | none => rfl
    | some l =>
      rw [hl] at h
      have : l ≠ [']'] := by rintro rfl; exact h rfl
      simp [this]

/-- **C21**: the meaning is unique; no argument list can be read in two ways. -/
theorem C21_unique (W : World) (args : List Word) (u v : Bool)
    (hu : Means W (compareVersions W) args u) (hv : Means W (compareVersions W) args v) : u = v := by
  have h1 := (testArgs_means W args u).2 hu
  have h2 := (testArgs_means W args v).2 hv
  rw [h1] at h2
  cases h2
  rfl

/-- **C22**: five or more arguments are evaluated as the grammar says: `!` binds tighter than
`-a`, which binds tighter than `-o`; parentheses group; every derivation gives the same value. -/
theorem C22_precedence (W : World) (args : List Word) (e : Expr) (v : Bool)
    (hn : 5 ≤ args.length) (h : Or args e []) (hv : Holds W (compareVersions W) e v) :
    testBuiltin W "test".toList args = (if v then 0 else 1, false) := by
  have hm : Means W (compareVersions W) args v := .long args e v hn h hv
  have := (testArgs_means W args v).2 hm
  rw [testBuiltin, if_neg (by decide), this]
  cases v <;> rfl

/-- **C22**: whatever is not derived by the grammar, or contains an operand without a value, is an
error. -/
theorem C22_error (W : World) (args : List Word) (hn : 5 ≤ args.length)
    (h : ∀ e v, Or args e [] → ¬ Holds W (compareVersions W) e v) :
    testBuiltin W "test".toList args = (2, true) := by
  have h3 := (C21_test W args).2.2
  have : ¬ ∃ v, Means W (compareVersions W) args v := by
    rintro ⟨v, hv⟩
    cases hv with
    | long _ e _ _ h1 h2 => exact h e v h1 h2
    | _ => simp at hn
  exact Prod.ext (h3.1.2 this) (h3.2.1 (h3.1.2 this))

/-! ### Versions -/

/-- `test a op b` succeeds. -/
def Test (W : World) (a : Word) (op : String) (b : Word) : Prop :=
  (testBuiltin W "test".toList [a, op.toList, b]).1 = 0

theorem test_version (W : World) (a b : Word) :
    (Test W a "-veq" b ↔ compareVersions W a b = 0) ∧
    (Test W a "-vne" b ↔ compareVersions W a b ≠ 0) ∧
    (Test W a "-vlt" b ↔ compareVersions W a b < 0) ∧
    (Test W a "-vle" b ↔ compareVersions W a b ≤ 0) ∧
    (Test W a "-vgt" b ↔ compareVersions W a b > 0) ∧
    (Test W a "-vge" b ↔ compareVersions W a b ≥ 0) := by
  have key : ∀ (op : String) (p : Bool),
      binaryOperator W a op.toList b = some (.ok p) → (Test W a op b ↔ p = true) := by
    intro op p h
    have : testArgs W [a, op.toList, b] = .ok p := by
      rw [testArgs, testTriple, h]
    rw [Test, testBuiltin, if_neg (by decide), this]
    cases p <;> decide
  refine ⟨?_, ?_, ?_, ?_, ?_, ?_⟩
  · rw [key "-veq" _ rfl]; simp
  · rw [key "-vne" _ rfl]; simp
  · rw [key "-vlt" _ rfl]; simp
  · rw [key "-vle" _ rfl]; simp
  · rw [key "-vgt" _ rfl]; simp
  · rw [key "-vge" _ rfl]; simp

/-- **C23**: in a locale whose collation looks at the first differing character (as the POSIX
locale's does), the version operators compare the strings component by component: numbers by
value, other characters by their collation rank, punctuation before letters before numbers, and
a proper beginning before the whole. -/
theorem C23_components_partial (W : World) (rank : Char → Nat) (hc : ByFirstChar W.coll rank)
    (a b : Word) (cs ds : List Component) (ha : Components W a cs) (hb : Components W b ds) :
    (Test W a "-vlt" b ↔ VersionLess rank cs ds) ∧ (Test W a "-veq" b ↔ cs = ds) ∧
    (Test W a "-vgt" b ↔ VersionLess rank ds cs) := by
  have := agrees_iff (versions_agree W rank hc a.length a b cs ds rfl ha hb)
  obtain ⟨h1, _, h3, _, h5, _⟩ := test_version W a b
  exact ⟨h3.trans this.1, h1.trans this.2.1, h5.trans this.2.2⟩

/-- Every string has components. -/
theorem C23_components_exist (W : World) (a : Word) : ∃ cs, Components W a cs :=
  components_total W a

/-- **C23**: in such a locale the operators describe one total preorder: reflexive, total,
transitive. -/
theorem C23_preorder_partial (W : World) (rank : Char → Nat) (hc : ByFirstChar W.coll rank) :
    (∀ a, Test W a "-veq" a) ∧
    (∀ a b, Test W a "-vle" b ∨ Test W b "-vle" a) ∧
    (∀ a b c, Test W a "-vle" b → Test W b "-vle" c → Test W a "-vle" c) ∧
    (∀ a b c, Test W a "-vlt" b → Test W b "-vle" c → Test W a "-vlt" c) ∧
    (∀ a b c, Test W a "-vle" b → Test W b "-vlt" c → Test W a "-vlt" c) ∧
    (∀ a b, Test W a "-vgt" b ↔ Test W b "-vlt" a) ∧
    (∀ a b, Test W a "-veq" b ↔ Test W a "-vle" b ∧ Test W b "-vle" a) := by
  have comp : ∀ a b, ∃ cs ds, Components W a cs ∧ Components W b ds ∧
      Agrees rank (compareVersions W a b) cs ds := by
    intro a b
    obtain ⟨cs, ha⟩ := components_total W a
    obtain ⟨ds, hb⟩ := components_total W b
    exact ⟨cs, ds, ha, hb, versions_agree W rank hc a.length a b cs ds rfl ha hb⟩
  have key : ∃ f : Word → List Component, ∀ a b, Agrees rank (compareVersions W a b) (f a) (f b) := by
    refine ⟨fun a => Classical.choose (components_total W a), fun a b => ?_⟩
    exact versions_agree W rank hc a.length a b _ _ rfl
      (Classical.choose_spec (components_total W a)) (Classical.choose_spec (components_total W b))
  obtain ⟨f, hf⟩ := key
  have le_iff : ∀ a b, compareVersions W a b ≤ 0 ↔ VersionLess rank (f a) (f b) ∨ f a = f b := by
    intro a b
    have := agrees_iff (hf a b)
    rw [← this.1, ← this.2.1]
    omega
  have lt_iff := fun a b => (agrees_iff (hf a b)).1
  have gt_iff := fun a b => (agrees_iff (hf a b)).2.2
  have eq_iff := fun a b => (agrees_iff (hf a b)).2.1
  refine ⟨?_, ?_, ?_, ?_, ?_, ?_, ?_⟩
  · intro a
    rw [(test_version W a a).1, eq_iff]
  · intro a b
    rw [(test_version W a b).2.2.2.1, (test_version W b a).2.2.2.1, le_iff, le_iff]
    rcases hf a b with ⟨_, h⟩ | ⟨_, h⟩ | ⟨_, h⟩
    · exact .inl (.inl h)
    · exact .inl (.inr h)
    · exact .inr (.inl h)
  · intro a b c
    rw [(test_version W a b).2.2.2.1, (test_version W b c).2.2.2.1, (test_version W a c).2.2.2.1,
      le_iff, le_iff, le_iff]
    rintro (h | h) (g | g)
    · exact .inl (versionLess_trans h g)
    · exact .inl (g ▸ h)
    · exact .inl (h ▸ g)
    · exact .inr (h.trans g)
  · intro a b c
    rw [(test_version W a b).2.2.1, (test_version W b c).2.2.2.1, (test_version W a c).2.2.1,
      lt_iff, le_iff, lt_iff]
    rintro h (g | g)
    · exact versionLess_trans h g
    · exact g ▸ h
  · intro a b c
    rw [(test_version W a b).2.2.2.1, (test_version W b c).2.2.1, (test_version W a c).2.2.1,
      le_iff, lt_iff, lt_iff]
    rintro (h | h) g
    · exact versionLess_trans h g
    · exact h ▸ g
  · intro a b
    rw [(test_version W a b).2.2.2.2.1, (test_version W b a).2.2.1, gt_iff, lt_iff]
  · intro a b
    rw [(test_version W a b).1, (test_version W a b).2.2.2.1, (test_version W b a).2.2.2.1, eq_iff,
      le_iff, le_iff]
    constructor
    · intro h; exact ⟨.inr h, .inr h.symm⟩
    · rintro ⟨h | h, g | g⟩
      · exact (versionLess_asymm h g).elim
      · exact g.symm
      · exact h
      · exact h

/-- **C23**: in every locale exactly one of `-vlt`, `-veq` and `-vgt` holds, the other operators
are their combinations, and exchanging the operands exchanges `-vlt` and `-vgt`. -/
theorem C23_trichotomy (W : World) (hc : ∀ a b, (W.coll a b).sign = -(W.coll b a).sign)
    (a b : Word) :
    ((Test W a "-vlt" b ∧ ¬ Test W a "-veq" b ∧ ¬ Test W a "-vgt" b) ∨
     (¬ Test W a "-vlt" b ∧ Test W a "-veq" b ∧ ¬ Test W a "-vgt" b) ∨
     (¬ Test W a "-vlt" b ∧ ¬ Test W a "-veq" b ∧ Test W a "-vgt" b)) ∧
    (Test W a "-vle" b ↔ Test W a "-vlt" b ∨ Test W a "-veq" b) ∧
    (Test W a "-vge" b ↔ Test W a "-vgt" b ∨ Test W a "-veq" b) ∧
    (Test W a "-vne" b ↔ ¬ Test W a "-veq" b) ∧
    (Test W a "-vgt" b ↔ Test W b "-vlt" a) ∧ (Test W a "-veq" b ↔ Test W b "-veq" a) := by
  obtain ⟨h1, h2, h3, h4, h5, h6⟩ := test_version W a b
  obtain ⟨g1, g2, g3, g4, g5, g6⟩ := test_version W b a
  rw [h1, h2, h3, h4, h5, h6, g1, g3]
  have hs := compareVersions_antisymm W hc a.length a b rfl
  have e : compareVersions W a b > 0 ↔ compareVersions W b a < 0 := by
    rw [gt_iff_lt, ← Int.sign_eq_one_iff_pos, ← Int.sign_eq_neg_one_iff_neg]; omega
  have e0 : compareVersions W a b = 0 ↔ compareVersions W b a = 0 := by
    rw [← Int.sign_eq_zero_iff_zero, ← Int.sign_eq_zero_iff_zero (a := compareVersions W b a)]; omega
  refine ⟨by omega, by omega, by omega, by omega, e, e0⟩

/-! ### A locale in which the version operators are not transitive -/

/-- Lexicographic comparison of lists of numbers. -/
def lexCmp : List Nat → List Nat → Int
  | [], [] => 0
  | [], _ :: _ => -1
  | _ :: _, [] => 1
  | a :: as, b :: bs => if a < b then -1 else if b < a then 1 else lexCmp as bs

theorem lexCmp_antisymm (a b : List Nat) : lexCmp a b = -lexCmp b a := by
  induction a generalizing b with
  | nil => cases b <;> rfl
  | cons x a ih =>
    cases b with
    | nil => rfl
    | cons y b =>
      simp only [lexCmp]
      rcases Nat.lt_trichotomy x y with h | h | h
      · have := Nat.not_lt.2 (Nat.le_of_lt h); simp [h, this]
      · subst h; simp [ih b]
      · have := Nat.not_lt.2 (Nat.le_of_lt h); simp [h, this]

theorem lexCmp_eq_zero (a b : List Nat) : lexCmp a b = 0 ↔ a = b := by
  induction a generalizing b with
  | nil => cases b <;> simp [lexCmp]
  | cons x a ih =>
    cases b with
    | nil => simp [lexCmp]
    | cons y b =>
      simp only [lexCmp]
      rcases Nat.lt_trichotomy x y with h | h | h
      · simp [h]; omega
      · subst h; simp [ih b]
      · have := Nat.not_lt.2 (Nat.le_of_lt h); simp [h, this]; omega

theorem lexCmp_trans (a b c : List Nat) (h1 : lexCmp a b < 0) (h2 : lexCmp b c < 0) :
    lexCmp a c < 0 := by
  induction a generalizing b c with
  | nil =>
    cases b with
    | nil => simp [lexCmp] at h1
    | cons y b =>
      cases c with
      | nil => simp [lexCmp] at h2
      | cons z c => simp [lexCmp]
  | cons x a ih =>
    cases b with
    | nil => simp [lexCmp] at h1
    | cons y b =>
      cases c with
      | nil => simp [lexCmp] at h2
      | cons z c =>
        simp only [lexCmp] at h1 h2 ⊢
        by_cases hxy : x < y
        · by_cases hyz : y < z
          · rw [if_pos (by omega)]; omega
          · rw [if_neg hyz] at h2
            by_cases hzy : z < y
            · rw [if_pos hzy] at h2; omega
            · rw [if_pos (by omega)]; omega
        · rw [if_neg hxy] at h1
          by_cases hyx : y < x
          · rw [if_pos hyx] at h1; omega
          · rw [if_neg hyx] at h1
            have : x = y := by omega
            subst this
            by_cases hyz : x < z
            · rw [if_pos hyz]; omega
            · rw [if_neg hyz] at h2 ⊢
              by_cases hzy : z < x
              · rw [if_pos hzy] at h2; omega
              · rw [if_neg hzy] at h2 ⊢
                exact ih b c h1 h2

/-- ASCII letters and digits. -/
def asciiAlnum (c : Char) : Bool := c.isAlphanum

/-- Collation key that looks at letters and digits first and at punctuation only afterwards, as
many language locales do. -/
def punctuationLast (s : Word) : List Nat :=
  (s.filter asciiAlnum).map (fun c => c.toNat + 1) ++ 0 :: s.map Char.toNat

theorem punctuationLast_injective (a b : Word) (h : punctuationLast a = punctuationLast b) :
    a = b := by
  have key : ∀ (x y : List Nat) (p q : List Nat), (∀ n ∈ x, n ≠ 0) → (∀ n ∈ y, n ≠ 0) →
      x ++ 0 :: p = y ++ 0 :: q → p = q := by
    intro x
    induction x with
    | nil =>
      intro y p q _ hy h
      cases y with
      | nil => simpa using h
      | cons n y =>
        simp only [List.nil_append, List.cons_append, List.cons.injEq] at h
        exact absurd h.1.symm (hy n (by simp))
    | cons m x ih =>
      intro y p q hx hy h
      cases y with
      | nil =>
        simp only [List.nil_append, List.cons_append, List.cons.injEq] at h
        exact absurd h.1 (hx m (by simp))
      | cons n y =>
        simp only [List.cons_append, List.cons.injEq] at h
        exact ih y p q (fun k hk => hx k (by simp [hk])) (fun k hk => hy k (by simp [hk])) h.2
  have nz : ∀ s : Word, ∀ n ∈ (s.filter asciiAlnum).map (fun c => c.toNat + 1), n ≠ 0 := by
    intro s n hn
    simp only [List.mem_map] at hn
    obtain ⟨c, _, rfl⟩ := hn
    omega
  have := key _ _ _ _ (nz a) (nz b) h
  have inj : Function.Injective Char.toNat := by
    intro c d h
    rw [← Char.ofNat_toNat c, ← Char.ofNat_toNat d, h]
  exact (List.map_inj_right (fun _ _ h => inj h)).1 this

/-- A world with ASCII classification and the given collation. -/
def exampleWorld (coll : Word → Word → Int) : World where
  isSpace c := c == ' '
  notSpace := by decide
  isAlnum := asciiAlnum
  coll := coll
  regex _ _ := false
  isatty _ := false
  optionValid _ := false
  optionEnabled _ := false
  convertible _ := true
  file c s := c == 'e' && s == "file".toList
  stat _ := none

/-- The collation by `punctuationLast`. -/
def collPunctuationLast (a b : Word) : Int := lexCmp (punctuationLast a) (punctuationLast b)

/-- **C23** fails in locales whose collation ignores punctuation at first: the collation below is
a total order of all strings, but `-5` < `+9` < `+10` < `-5`. -/
theorem C23_cycle :
    ((∀ a b, collPunctuationLast a b = -collPunctuationLast b a) ∧
     (∀ a b, collPunctuationLast a b = 0 ↔ a = b) ∧
     (∀ a b c, collPunctuationLast a b < 0 → collPunctuationLast b c < 0 →
        collPunctuationLast a c < 0)) ∧
    Test (exampleWorld collPunctuationLast) "-5".toList "-vlt" "+9".toList ∧
    Test (exampleWorld collPunctuationLast) "+9".toList "-vlt" "+10".toList ∧
    Test (exampleWorld collPunctuationLast) "+10".toList "-vlt" "-5".toList := by
  refine ⟨⟨fun a b => lexCmp_antisymm _ _, fun a b => ?_, fun a b c => lexCmp_trans _ _ _⟩,
    ?_, ?_, ?_⟩
  · rw [collPunctuationLast, lexCmp_eq_zero]
    exact ⟨punctuationLast_injective a b, fun h => by rw [h]⟩
  · rw [(test_version _ _ _).2.2.1]; decide +kernel
  · rw [(test_version _ _ _).2.2.1]; decide +kernel
  · rw [(test_version _ _ _).2.2.1]; decide +kernel

/-! ### The hypotheses can be met -/

/-- Collation of the POSIX locale. -/
def collPosix (a b : Word) : Int := lexCmp (a.map Char.toNat) (b.map Char.toNat)

theorem byFirstChar_posix : ByFirstChar collPosix Char.toNat where
  injective c d h := by rw [← Char.ofNat_toNat c, ← Char.ofNat_toNat d, h]
  less c d r s h := by simp [collPosix, lexCmp, h]
  greater c d r s h := by
    have := Nat.not_lt.2 (Nat.le_of_lt h)
    simp [collPosix, lexCmp, h, this]
  nilLess c r := by simp [collPosix, lexCmp]
  nilGreater c r := by simp [collPosix, lexCmp]

abbrev posixWorld : World := exampleWorld collPosix

example : Test posixWorld "1.9b".toList "-vlt" "1.10a".toList := by
  rw [(test_version _ _ _).2.2.1]; decide +kernel

example : Test posixWorld "1.02".toList "-veq" "1.2".toList := by
  rw [(test_version _ _ _).1]; decide +kernel

/-- Operands that look like operators. -/
example : Means posixWorld (compareVersions posixWorld) (["!", "=", "!"].map String.toList) true :=
  .threeBinary _ _ _ _ (.binary _ _ "=" _ .equal)

example : (testBuiltin posixWorld "[".toList (["(", "=", "(", "]"].map String.toList)) = (0, false) := by
  decide +kernel

/-- `test ! '' -a x -o ''`: five arguments, parsed as (! '' and x) or ''. -/
example : testBuiltin posixWorld "test".toList (["!", "", "-a", "x", "-o", ""].map String.toList)
    = (0, false) := by
  have bin : ∀ (w : String) (ws : List Word),
      (ws.head?.all fun o => !isBinaryPrimary o) → ¬ BinaryAt (w.toList :: ws) := by
    rintro w ws h ⟨l, op, r, rest, e, h1, _⟩
    cases e
    rw [← isBinary_iff] at h1
    simp [h1] at h
  have un : ∀ (w : String) (ws : List Word), isUnaryPrimary w.toList = false →
      ¬ UnaryAt (w.toList :: ws) := by
    rintro w ws h ⟨op, r, rest, e, h1, _⟩
    cases e
    rw [← isUnary_iff, h] at h1
    cases h1
  refine C22_precedence posixWorld _ (.or (.and (.not (.str [])) (.str ['x'])) (.str [])) true
    (by decide) ?_ ?_
  · refine .more _ _ (["".toList]) _ _ (.one _ _ _ (.more _ _ (["x", "-o", ""].map String.toList) _ _
      (.one _ _ _ (.not _ _ _ (.primary _ _ _ (by decide) (.str _ _ (bin "" _ (by decide)) (un "" _ rfl)))))
      (.plain _ _ _ (by decide) (.primary _ _ _ (by decide)
        (.str _ _ (bin "x" _ (by decide)) (un "x" _ rfl))))))
      (.one _ _ _ (.plain _ _ _ (by decide) (.primary _ _ _ (by decide)
        (.str _ _ (bin "" _ (by decide)) (un "" _ rfl)))))
  · exact .or _ _ true false (.and _ _ true true (.not _ false (.str [])) (.str ['x'])) (.str [])

/-- A dangling operator is an error. -/
example : testBuiltin posixWorld "test".toList (["a", "-a", "b", "-o", "c", "d"].map String.toList)
    = (2, true) := by
  decide +kernel

end Yash.TestBuiltin
