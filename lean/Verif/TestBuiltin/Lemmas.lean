import Verif.TestBuiltin.Spec
set_option autoImplicit false

namespace Yash.TestBuiltin

open Spec

theorem isUnary_iff (w : Word) : isUnaryPrimary w = true ↔ w ∈ unaryOperators := by
  constructor
  · intro h
    unfold isUnaryPrimary at h
    split at h
    · split at h <;> first | (cases h; done) | decide
    · cases h
  · intro h
    simp only [unaryOperators, List.map_cons, List.map_nil, List.mem_cons, List.not_mem_nil,
      or_false] at h
    rcases h with h | h | h | h | h | h | h | h | h | h | h | h | h | h | h | h | h | h | h | h | h
      | h | h <;> subst h <;> rfl

theorem isBinary_iff (w : Word) : isBinaryPrimary w = true ↔ w ∈ binaryOperators := by
  constructor
  · intro h
    unfold isBinaryPrimary at h
    repeat' split at h
    all_goals first | (cases h; done) | decide
  · intro h
    simp only [binaryOperators, List.map_cons, List.map_nil, List.mem_cons, List.not_mem_nil,
      or_false] at h
    rcases h with h | h | h | h | h | h | h | h | h | h | h | h | h | h | h | h | h | h | h | h | h
      | h | h | h | h <;> subst h <;> rfl

theorem isTermDelimiter_iff (d : Word) : isTermDelimiter d = true ↔
    d = ")".toList ∨ d = "-a".toList ∨ d = "-o".toList := by
  constructor
  · intro h
    unfold isTermDelimiter at h
    split at h
    · exact .inl rfl
    · exact .inr (.inl rfl)
    · exact .inr (.inr rfl)
    · cases h
  · rintro (h | h | h) <;> subst h <;> rfl

theorem ends_nil : Ends [] := .inl rfl

theorem ends_cons (d : Word) (r : List Word) : Ends (d :: r) ↔ isTermDelimiter d = true := by
  rw [isTermDelimiter_iff]
  simp [Ends]

theorem ends_iff (rest : List Word) :
    atTermEnd rest = true ↔ Ends rest := by
  cases rest with
  | nil => simp [ends_nil, atTermEnd]
  | cons d r => exact (ends_cons d r).symm

theorem mem_digits (c : Char) : c ∈ "0123456789".toList ↔ isDigit c = true := by
  rw [isDigit]
  constructor
  · intro h
    have h : c ∈ ['0','1','2','3','4','5','6','7','8','9'] := h
    simp only [List.mem_cons, List.not_mem_nil, or_false] at h
    rcases h with h | h | h | h | h | h | h | h | h | h <;> subst h <;> decide
  · intro h
    simp only [Bool.and_eq_true, decide_eq_true_eq] at h
    obtain ⟨h1, h2⟩ := h
    have h1 : (48 : Nat) ≤ c.toNat := h1
    have h2 : c.toNat ≤ (57 : Nat) := h2
    have : c = Char.ofNat c.toNat := (Char.ofNat_toNat c).symm
    rw [this]
    generalize c.toNat = n at h1 h2
    have : n = 48 ∨ n = 49 ∨ n = 50 ∨ n = 51 ∨ n = 52 ∨ n = 53 ∨ n = 54 ∨ n = 55 ∨ n = 56 ∨ n = 57 := by
      omega
    rcases this with h | h | h | h | h | h | h | h | h | h <;> subst h <;> decide

theorem digitsVal_eq (acc : Nat) (ds : Word) :
    digitsVal ds acc = acc * 10 ^ ds.length + decimal ds := by
  induction ds generalizing acc with
  | nil => simp [digitsVal, decimal]
  | cons d r ih =>
    rw [digitsVal, ih, decimal, List.length_cons, Nat.pow_succ, digitVal]
    rw [Nat.add_mul, Nat.mul_comm 10 acc, Nat.mul_assoc, Nat.mul_comm 10]
    omega

theorem digitsVal_zero (ds : Word) : digitsVal ds 0 = decimal ds := by
  rw [digitsVal_eq]; simp

theorem dropWhile_append_of_head {p : Char → Bool} {a b : Word} (ha : ∀ c ∈ a, p c = true)
    (hb : ∀ c r, b = c :: r → p c = false) : (a ++ b).dropWhile p = b := by
  induction a with
  | nil =>
    cases b with
    | nil => rfl
    | cons c r => simp [hb c r rfl]
  | cons x a ih =>
    simp [ha x (by simp)]
    exact ih (fun c hc => ha c (by simp [hc]))

theorem signOf_inv (t : Word) : ∃ sign, t = sign ++ (signOf t).2 ∧
    (sign = [] ∧ (signOf t).1 = false ∨ sign = ['+'] ∧ (signOf t).1 = false
      ∨ sign = ['-'] ∧ (signOf t).1 = true) := by
  unfold signOf
  split
  · exact ⟨['-'], rfl, .inr (.inr ⟨rfl, rfl⟩)⟩
  · exact ⟨['+'], rfl, .inr (.inl ⟨rfl, rfl⟩)⟩
  · exact ⟨[], rfl, .inl ⟨rfl, rfl⟩⟩

theorem wcstoimax_iff (W : World) (s : Word) (n : Int) :
    wcstoimax W s = some n ↔ IsInteger W s n := by
  constructor
  · intro h
    rw [wcstoimax] at h
    have hs : s = s.takeWhile W.isSpace ++ s.dropWhile W.isSpace :=
      List.takeWhile_append_dropWhile.symm
    have hb : ∀ c ∈ s.takeWhile W.isSpace, W.isSpace c = true := by
      intro c hc
      exact List.all_eq_true.1 (List.all_takeWhile) c hc
    generalize s.takeWhile W.isSpace = bl at hs hb
    generalize s.dropWhile W.isSpace = t at *
    obtain ⟨sign, ht, hsg⟩ := signOf_inv t
    generalize hds : (signOf t).2 = ds at *
    generalize hbo : (signOf t).1 = b at *
    dsimp only at h
    by_cases hne : ds.isEmpty = true
    · rw [if_pos hne] at h; cases h
    · rw [if_neg hne] at h
      by_cases hall : ds.all isDigit = true
      · rw [if_pos hall] at h
        generalize hv : (if b = true then -(digitsVal ds 0 : Int) else (digitsVal ds 0 : Int)) = v at h
        by_cases hr : v < -9223372036854775808 ∨ v > 9223372036854775807
        · rw [if_pos hr] at h; cases h
        · rw [if_neg hr] at h
          have := Option.some.inj h
          subst this
          rw [hs, ht, ← List.append_assoc]
          rw [digitsVal_zero] at hv
          refine .intro bl ds sign v hb (by simpa using hne)
            (fun c hc => (mem_digits c).2 (List.all_eq_true.1 hall c hc)) ?_ (by omega) (by omega)
          rcases hsg with ⟨h1, h2⟩ | ⟨h1, h2⟩ | ⟨h1, h2⟩
          · exact .inl ⟨h1, by rw [← hv, h2]; rfl⟩
          · exact .inr (.inl ⟨h1, by rw [← hv, h2]; rfl⟩)
          · exact .inr (.inr ⟨h1, by rw [← hv, h2]; rfl⟩)
      · rw [if_neg hall] at h; cases h
  · rintro ⟨bl, ds, sign, n, hb, hne, hd, hs, h1, h2⟩
    have hall : ds.all isDigit = true :=
      List.all_eq_true.2 (fun c hc => (mem_digits c).1 (hd c hc))
    have key : ∀ b : Bool, signOf (sign ++ ds) = (b, ds) →
        (∀ c r, sign ++ ds = c :: r → W.isSpace c = false) →
        n = (if b then -(digitsVal ds 0 : Int) else digitsVal ds 0) →
        wcstoimax W (bl ++ sign ++ ds) = some n := by
      intro b hsg hsp hn
      rw [wcstoimax, List.append_assoc, dropWhile_append_of_head hb hsp, hsg]
      dsimp only
      rw [if_neg (by simpa using hne), if_pos hall, ← hn, if_neg (by omega)]
    rcases hs with ⟨rfl, hn⟩ | ⟨rfl, hn⟩ | ⟨rfl, hn⟩
    · refine key false ?_ ?_ (by rw [hn, digitsVal_zero]; rfl)
      · cases ds with
        | nil => exact absurd rfl hne
        | cons c r =>
          have : c ∈ "0123456789".toList := hd c (by simp)
          have h3 : c ≠ '-' := by rintro rfl; revert this; decide
          have h4 : c ≠ '+' := by rintro rfl; revert this; decide
          rw [List.nil_append, signOf.eq_def]
          split
          · rename_i e; cases e; exact absurd rfl h3
          · rename_i e; cases e; exact absurd rfl h4
          · rfl
      · intro c r e
        rw [List.nil_append] at e
        subst e
        have : c ∈ "0123456789".toList := hd c (by simp)
        apply W.notSpace
        show c ∈ '+' :: '-' :: "0123456789".toList
        simp only [List.mem_cons]
        exact .inr (.inr this)
    · refine key false rfl ?_ (by rw [hn, digitsVal_zero]; rfl)
      intro c r e
      cases e
      exact W.notSpace _ (by decide)
    · refine key true rfl ?_ (by rw [hn, digitsVal_zero]; rfl)
      intro c r e
      cases e
      exact W.notSpace _ (by decide)

theorem isInteger_unique {W : World} {s : Word} {m n : Int} (h : IsInteger W s m)
    (h' : IsInteger W s n) : m = n := by
  have h1 := (wcstoimax_iff W s m).2 h
  have h2 := (wcstoimax_iff W s n).2 h'
  rw [h1] at h2
  exact Option.some.inj h2

theorem intRes_iff (W : World) (l r : Word) (p : Int → Bool) (v : Bool) :
    intRes W l r p = ⟨v, false⟩ ↔ ∃ a b, IsInteger W l a ∧ IsInteger W r b ∧
      v = p (if a < b then -1 else if a > b then 1 else 0) := by
  rw [intRes, compareIntegers]
  constructor
  · intro h
    cases hl : wcstoimax W l with
    | none => rw [hl] at h; cases h
    | some a =>
      cases hr : wcstoimax W r with
      | none => rw [hl, hr] at h; cases h
      | some b =>
        rw [hl, hr] at h
        dsimp only [Res.ok] at h
        injection h with h _
        exact ⟨a, b, (wcstoimax_iff _ _ _).1 hl, (wcstoimax_iff _ _ _).1 hr, h.symm⟩
  · rintro ⟨a, b, hl, hr, rfl⟩
    rw [(wcstoimax_iff _ _ _).2 hl, (wcstoimax_iff _ _ _).2 hr]
    rfl

theorem compareFiles_isSome (W : World) (l r : Word) (hl : W.convertible l = true)
    (hr : W.convertible r = true) : ∃ c, compareFiles W l r = some c := by
  rw [compareFiles, hl, hr]
  cases W.stat l <;> cases W.stat r <;> simp
  repeat' split
  all_goals simp

theorem fileRes_iff (W : World) (l r : Word) (k : FileCmp) (v : Bool) :
    fileRes W l r k = ⟨v, false⟩ ↔ W.convertible l = true ∧ W.convertible r = true ∧
      ∃ c, compareFiles W l r = some c ∧ v = (c == k) := by
  cases hl : W.convertible l with
  | false => simp [fileRes, compareFiles, hl]
  | true =>
    cases hr : W.convertible r with
    | false => simp [fileRes, compareFiles, hl, hr]
    | true =>
      obtain ⟨c, hc⟩ := compareFiles_isSome W l r hl hr
      rw [fileRes, hc]
      simp [Res.ok, eq_comm]

end Yash.TestBuiltin
