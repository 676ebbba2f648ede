import Verif.TestBuiltin.Primary
set_option autoImplicit false

namespace Yash.TestBuiltin

open Spec

theorem binary_mem {W : World} {f : Word → Word → Int} {l r : Word} {s : String} {v : Bool}
    (h : Binary W f l r s v) : s.toList ∈ binaryOperators := by
  cases h <;> decide

theorem triple_mem {W : World} {f : Word → Word → Int} {l o r : Word} {v : Bool}
    (h : Triple W f l o r v) : o ∈ binaryOperators3 := by
  cases h with
  | binary _ op _ h => exact List.mem_append.2 (.inl (binary_mem h))
  | and => decide
  | or => decide

theorem testSingle_eq (a : Word) : testSingle a = decide (a ≠ []) := by cases a <;> rfl

theorem sameFile_iff (W : World) (l r : Word) (hl : W.convertible l = true)
    (hr : W.convertible r = true) (c : FileCmp) (hc : compareFiles W l r = some c) :
    c = .id ↔ SameFile (W.stat l) (W.stat r) := by
  rw [compareFiles, hl, hr] at hc
  simp only [Bool.not_true, Bool.false_eq_true, if_false] at hc
  cases hsl : W.stat l <;> cases hsr : W.stat r <;> rw [hsl, hsr] at hc <;> dsimp only at hc
  · cases hc; simp [SameFile]
  · cases hc; simp [SameFile]
  · cases hc; simp [SameFile]
  · rename_i s t
    by_cases h : s.dev = t.dev ∧ s.ino = t.ino
    · rw [if_pos h] at hc; cases hc; simp [SameFile, h]
    · rw [if_neg h] at hc
      have h' : ¬ SameFile (some s) (some t) := by
        rintro ⟨_, _, e1, e2, e3, e4⟩
        cases e1; cases e2
        exact h ⟨e3, e4⟩
      simp only [h', iff_false]
      rintro rfl
      repeat' split at hc
      all_goals cases hc

theorem newer_iff (W : World) (l r : Word) (hl : W.convertible l = true)
    (hr : W.convertible r = true) (c : FileCmp) (hc : compareFiles W l r = some c) :
    (c = .newer ↔ Newer (W.stat l) (W.stat r)) ∧ (c = .older ↔ Newer (W.stat r) (W.stat l)) := by
  rw [compareFiles, hl, hr] at hc
  simp only [Bool.not_true, Bool.false_eq_true, if_false] at hc
  cases hsl : W.stat l <;> cases hsr : W.stat r <;> rw [hsl, hsr] at hc <;> dsimp only at hc
  · cases hc; simp [Newer]
  · cases hc; simp [Newer]
  · cases hc; simp [Newer]
  · rename_i s t
    by_cases h : s.dev = t.dev ∧ s.ino = t.ino
    · rw [if_pos h] at hc; cases hc; simp [Newer, h]
    · rw [if_neg h] at hc
      have h2 : ¬ (t.dev = s.dev ∧ t.ino = s.ino) := fun ⟨a, b⟩ => h ⟨a.symm, b.symm⟩
      simp only [Newer, h, h2, not_false_eq_true, true_and]
      repeat' split at hc
      all_goals
        cases hc
        constructor <;> constructor <;> intro hh <;> first | omega | rfl | (cases hh; done)

theorem fileRes_id (W : World) (l r : Word) (v : Bool) : fileRes W l r .id = ⟨v, false⟩ ↔
    W.convertible l = true ∧ W.convertible r = true ∧
      (v = true ↔ SameFile (W.stat l) (W.stat r)) := by
  rw [fileRes_iff]
  constructor
  · rintro ⟨hl, hr, c, hc, rfl⟩
    refine ⟨hl, hr, ?_⟩
    rw [← sameFile_iff W l r hl hr c hc]
    simp
  · rintro ⟨hl, hr, h⟩
    obtain ⟨c, hc⟩ := compareFiles_isSome W l r hl hr
    refine ⟨hl, hr, c, hc, ?_⟩
    rw [← sameFile_iff W l r hl hr c hc] at h
    cases c <;> cases v <;> simp_all

theorem fileRes_newer (W : World) (l r : Word) (v : Bool) : fileRes W l r .newer = ⟨v, false⟩ ↔
    W.convertible l = true ∧ W.convertible r = true ∧
      (v = true ↔ Newer (W.stat l) (W.stat r)) := by
  rw [fileRes_iff]
  constructor
  · rintro ⟨hl, hr, c, hc, rfl⟩
    refine ⟨hl, hr, ?_⟩
    rw [← (newer_iff W l r hl hr c hc).1]
    simp
  · rintro ⟨hl, hr, h⟩
    obtain ⟨c, hc⟩ := compareFiles_isSome W l r hl hr
    refine ⟨hl, hr, c, hc, ?_⟩
    rw [← (newer_iff W l r hl hr c hc).1] at h
    cases c <;> cases v <;> simp_all

theorem fileRes_older (W : World) (l r : Word) (v : Bool) : fileRes W l r .older = ⟨v, false⟩ ↔
    W.convertible l = true ∧ W.convertible r = true ∧
      (v = true ↔ Newer (W.stat r) (W.stat l)) := by
  rw [fileRes_iff]
  constructor
  · rintro ⟨hl, hr, c, hc, rfl⟩
    refine ⟨hl, hr, ?_⟩
    rw [← (newer_iff W l r hl hr c hc).2]
    simp
  · rintro ⟨hl, hr, h⟩
    obtain ⟨c, hc⟩ := compareFiles_isSome W l r hl hr
    refine ⟨hl, hr, c, hc, ?_⟩
    rw [← (newer_iff W l r hl hr c hc).2] at h
    cases c <;> cases v <;> simp_all

theorem cmp_eq (a b : Int) : ((if a < b then (-1 : Int) else if a > b then 1 else 0) == 0)
    = decide (a = b) := by
  split
  · have : ¬ a = b := by omega
    simp [this]
  · split
    · have : ¬ a = b := by omega
      simp [this]
    · have : a = b := by omega
      simp [this]

theorem cmp_ne (a b : Int) : ((if a < b then (-1 : Int) else if a > b then 1 else 0) != 0)
    = decide (a ≠ b) := by
  rw [bne, cmp_eq]; simp

theorem cmp_gt (a b : Int) : decide ((if a < b then (-1 : Int) else if a > b then 1 else 0) > 0)
    = decide (a > b) := by
  split
  · have : ¬ a > b := by omega
    simp [this]
  · split
    · simp [*]
    · simp [*]

theorem cmp_ge (a b : Int) : decide ((if a < b then (-1 : Int) else if a > b then 1 else 0) ≥ 0)
    = decide (a ≥ b) := by
  split
  · have : ¬ a ≥ b := by omega
    simp [this]
  · have : a ≥ b := by omega
    simp only [this, decide_true]
    split <;> rfl

theorem cmp_lt (a b : Int) : decide ((if a < b then (-1 : Int) else if a > b then 1 else 0) < 0)
    = decide (a < b) := by
  split
  · simp [*]
  · simp only [*, decide_false]
    split <;> rfl

theorem cmp_le (a b : Int) : decide ((if a < b then (-1 : Int) else if a > b then 1 else 0) ≤ 0)
    = decide (a ≤ b) := by
  split
  · have : a ≤ b := by omega
    simp [this]
  · split
    · have : ¬ a ≤ b := by omega
      simp [this]
    · have : a ≤ b := by omega
      simp [this]

theorem ok_iff (b v : Bool) : Res.ok b = ⟨v, false⟩ ↔ v = b := by
  constructor
  · intro h; cases h; rfl
  · rintro rfl; rfl

theorem beq_dec (n : Int) : (n == 0) = decide (n = 0) := rfl
theorem bne_dec (n : Int) : (n != 0) = decide (n ≠ 0) := by simp [bne, beq_dec]
theorem beq_word (a b : Word) : (a == b) = decide (a = b) := by
  rw [Bool.eq_iff_iff]; simp
theorem bne_word (a b : Word) : (a != b) = decide (a ≠ b) := by
  rw [Bool.eq_iff_iff]; simp

/-- The operator table. -/
theorem binaryOperator_iff (W : World) (l op r : Word) (v : Bool) :
    binaryOperator W l op r = some ⟨v, false⟩ ↔ Triple W (compareVersions W) l op r v := by
  constructor
  · intro h
    unfold binaryOperator at h
    repeat' split at h
    all_goals
      first
        | (cases h; done)
        | skip
    all_goals
      have h := Option.some.inj h
      first
        | rw [ok_iff] at h
        | (rw [intRes_iff] at h; obtain ⟨a, b, ha, hb, h⟩ := h)
        | (rw [fileRes_id] at h; obtain ⟨a, b, h⟩ := h)
        | (rw [fileRes_newer] at h; obtain ⟨a, b, h⟩ := h)
        | (rw [fileRes_older] at h; obtain ⟨a, b, h⟩ := h)
    · rw [beq_word] at h; subst h; exact .binary _ _ "=" _ .equal
    · rw [beq_word] at h; subst h; exact .binary _ _ "==" _ .equal'
    · rw [beq_dec] at h; subst h; exact .binary _ _ "===" _ .collEqual
    · subst h; exact .binary _ _ "=~" _ .regex
    · rw [bne_word] at h; subst h; exact .binary _ _ "!=" _ .notEqual
    · rw [bne_dec] at h; subst h; exact .binary _ _ "!==" _ .collNotEqual
    · subst h; exact .binary _ _ "<" _ .collLess
    · subst h; exact .binary _ _ "<=" _ .collLessEq
    · subst h; exact .binary _ _ ">" _ .collGreater
    · subst h; exact .binary _ _ ">=" _ .collGreaterEq
    · subst h
      have : (testSingle l && testSingle r) = decide (l ≠ [] ∧ r ≠ []) := by
        rw [testSingle_eq, testSingle_eq, Bool.decide_and]
      rw [this]
      exact .and _ _
    · subst h
      have : (testSingle l || testSingle r) = decide (l ≠ [] ∨ r ≠ []) := by
        rw [testSingle_eq, testSingle_eq, Bool.decide_or]
      rw [this]
      exact .or _ _
    · exact .binary _ _ "-ot" _ (.older _ a b h)
    · exact .binary _ _ "-ef" _ (.same _ a b h)
    · rw [cmp_eq] at h; subst h; exact .binary _ _ "-eq" _ (.intEq _ _ ha hb)
    · rw [cmp_ne] at h; subst h; exact .binary _ _ "-ne" _ (.intNe _ _ ha hb)
    · exact .binary _ _ "-nt" _ (.newer _ a b h)
    · rw [cmp_gt] at h; subst h; exact .binary _ _ "-gt" _ (.intGt _ _ ha hb)
    · rw [cmp_ge] at h; subst h; exact .binary _ _ "-ge" _ (.intGe _ _ ha hb)
    · rw [cmp_lt] at h; subst h; exact .binary _ _ "-lt" _ (.intLt _ _ ha hb)
    · rw [cmp_le] at h; subst h; exact .binary _ _ "-le" _ (.intLe _ _ ha hb)
    · rw [beq_dec] at h; subst h; exact .binary _ _ "-veq" _ .versEq
    · rw [bne_dec] at h; subst h; exact .binary _ _ "-vne" _ .versNe
    · subst h; exact .binary _ _ "-vgt" _ .versGt
    · subst h; exact .binary _ _ "-vge" _ .versGe
    · subst h; exact .binary _ _ "-vlt" _ .versLt
    · subst h; exact .binary _ _ "-vle" _ .versLe
  · intro h
    cases h with
    | and =>
      show some (Res.ok (testSingle l && testSingle r)) = _
      rw [testSingle_eq, testSingle_eq, Bool.decide_and]; rfl
    | or =>
      show some (Res.ok (testSingle l || testSingle r)) = _
      rw [testSingle_eq, testSingle_eq, Bool.decide_or]; rfl
    | binary _ s _ h =>
      cases h with
      | equal => show some (Res.ok (l == r)) = _; rw [beq_word]; rfl
      | equal' => show some (Res.ok (l == r)) = _; rw [beq_word]; rfl
      | notEqual => show some (Res.ok (l != r)) = _; rw [bne_word]; rfl
      | collEqual => show some (Res.ok (W.coll l r == 0)) = _; rw [beq_dec]; rfl
      | collNotEqual => show some (Res.ok (W.coll l r != 0)) = _; rw [bne_dec]; rfl
      | collLess => rfl
      | collLessEq => rfl
      | collGreater => rfl
      | collGreaterEq => rfl
      | regex => rfl
      | intEq a b ha hb =>
        exact congrArg some ((intRes_iff W l r (· == 0) _).2 ⟨a, b, ha, hb, (cmp_eq a b).symm⟩)
      | intNe a b ha hb =>
        exact congrArg some ((intRes_iff W l r (· != 0) _).2 ⟨a, b, ha, hb, (cmp_ne a b).symm⟩)
      | intGt a b ha hb =>
        exact congrArg some ((intRes_iff W l r (· > 0) _).2 ⟨a, b, ha, hb, (cmp_gt a b).symm⟩)
      | intGe a b ha hb =>
        exact congrArg some ((intRes_iff W l r (· ≥ 0) _).2 ⟨a, b, ha, hb, (cmp_ge a b).symm⟩)
      | intLt a b ha hb =>
        exact congrArg some ((intRes_iff W l r (· < 0) _).2 ⟨a, b, ha, hb, (cmp_lt a b).symm⟩)
      | intLe a b ha hb =>
        exact congrArg some ((intRes_iff W l r (· ≤ 0) _).2 ⟨a, b, ha, hb, (cmp_le a b).symm⟩)
      | same _ a b h => exact congrArg some ((fileRes_id W l r v).2 ⟨a, b, h⟩)
      | newer _ a b h => exact congrArg some ((fileRes_newer W l r v).2 ⟨a, b, h⟩)
      | older _ a b h => exact congrArg some ((fileRes_older W l r v).2 ⟨a, b, h⟩)
      | versEq => show some (Res.ok (compareVersions W l r == 0)) = _; rw [beq_dec]; rfl
      | versNe => show some (Res.ok (compareVersions W l r != 0)) = _; rw [bne_dec]; rfl
      | versGt => rfl
      | versGe => rfl
      | versLt => rfl
      | versLe => rfl

theorem binaryOperator_none (W : World) (l op r : Word) :
    binaryOperator W l op r = none ↔ op ∉ binaryOperators3 := by
  constructor
  · intro h hm
    simp only [binaryOperators3, binaryOperators, List.map_cons, List.map_nil, List.cons_append,
      List.nil_append, List.mem_cons, List.not_mem_nil, or_false] at hm
    rcases hm with e | e | e | e | e | e | e | e | e | e | e | e | e | e | e | e | e | e | e | e
      | e | e | e | e | e | e | e <;> subst e <;> cases h
  · intro hm
    unfold binaryOperator
    repeat' split
    all_goals first
      | rfl
      | exact absurd (by decide) hm

theorem binary_mem3 {op : Word} (h : op ∈ binaryOperators) : op ∈ binaryOperators3 :=
  List.mem_append.2 (.inl h)

/-- With a genuine binary operator in the middle, `test_triple` is the operator. -/
theorem testTriple_binary (W : World) (l op r : Word) (v : Bool) (h : op ∈ binaryOperators) :
    testTriple W l op r = ⟨v, false⟩ ↔
      ∃ s : String, op = s.toList ∧ Binary W (compareVersions W) l r s v := by
  have hs : binaryOperator W l op r ≠ none := fun e =>
    (binaryOperator_none W l op r).1 e (binary_mem3 h)
  rw [testTriple]
  cases hb : binaryOperator W l op r with
  | none => exact absurd hb hs
  | some res =>
    dsimp only
    rw [← Option.some_inj, ← hb, binaryOperator_iff]
    constructor
    · intro ht
      cases ht with
      | binary _ s _ hb => exact ⟨s, rfl, hb⟩
      | and => exact absurd h (by decide)
      | or => exact absurd h (by decide)
    · rintro ⟨s, rfl, hb2⟩
      exact .binary _ _ s _ hb2

end Yash.TestBuiltin
