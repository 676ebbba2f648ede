import Verif.TestBuiltin.Lemmas
set_option autoImplicit false

namespace Yash.TestBuiltin

open Spec

theorem xwcstoi_iff (W : World) (s : Word) (n : Int) :
    xwcstoi W s = some n ↔ IsInteger W s n ∧ -(2 ^ 31) ≤ n ∧ n < 2 ^ 31 := by
  rw [xwcstoi]
  cases h : wcstoimax W s with
  | none =>
    constructor
    · intro h; cases h
    · rintro ⟨h1, _⟩
      rw [(wcstoimax_iff W s n).2 h1] at h
      cases h
  | some v =>
    have hv := (wcstoimax_iff W s v).1 h
    dsimp only
    split
    · rename_i hr
      constructor
      · intro h; cases h
      · rintro ⟨h1, h2, h3⟩
        have := isInteger_unique h1 hv
        omega
    · rename_i hr
      constructor
      · intro h
        have := Option.some.inj h
        subst this
        exact ⟨hv, by omega, by omega⟩
      · rintro ⟨h1, _⟩
        rw [isInteger_unique h1 hv]

theorem unary_mem {W : World} {arg : Word} {s : String} {v : Bool} (h : Unary W arg s v) :
    s.toList ∈ unaryOperators := by
  cases h with
  | file op c hm _ =>
    simp only [List.mem_cons, Prod.mk.injEq, List.not_mem_nil, or_false] at hm
    rcases hm with h | h | h | h | h | h | h | h | h | h | h | h | h | h | h | h | h | h | h <;>
      obtain ⟨rfl, rfl⟩ := h <;> decide
  | _ => decide

theorem testOption_some (W : World) (r : Word) : testOption W ('?' :: r) = W.optionValid r := rfl

theorem testOption_other (W : World) (a : Word) (h : a.head? ≠ some '?') :
    testOption W a = W.optionEnabled a := by
  unfold testOption
  split
  · exact absurd rfl h
  · rfl

theorem testDouble_iff (W : World) (op arg : Word) (v : Bool) (hop : op ≠ ['!']) :
    testDouble W op arg = ⟨v, false⟩ ↔ ∃ s : String, op = s.toList ∧ Unary W arg s v := by
  rw [testDouble, if_neg hop]
  constructor
  · intro h
    split at h
    · cases h
    · rename_i hu
      have hu : isUnaryPrimary op = true := by simpa using hu
      have hm := (isUnary_iff op).1 hu
      clear hop hu
      simp only [unaryOperators, List.map_cons, List.map_nil, List.mem_cons, List.not_mem_nil,
        or_false] at hm
      rcases hm with e | e | e | e | e | e | e | e | e | e | e | e | e | e | e | e | e | e | e | e
        | e | e | e <;> refine ⟨_, e, ?_⟩ <;> subst e
      case inr.inr.inr.inr.inr.inr.inr.inr.inr.inr.inr.inl =>
        have h := congrArg Res.val h
        have h : (!arg.isEmpty) = v := h
        subst h
        have : (!arg.isEmpty) = decide (arg ≠ []) := by cases arg <;> rfl
        rw [this]
        exact .nonempty
      case inr.inr.inr.inr.inr.inr.inr.inr.inr.inr.inr.inr.inr.inl =>
        have h := congrArg Res.val h
        have h : testOption W arg = v := h
        subst h
        by_cases hc : arg.head? = some '?'
        · cases arg with
          | nil => cases hc
          | cons c r =>
            cases hc
            exact .optionExists r rfl
        · rw [testOption_other W arg hc]
          exact .optionOn hc
      case inr.inr.inr.inr.inr.inr.inr.inr.inr.inr.inr.inr.inr.inr.inr.inr.inr.inr.inl =>
        have h' : (match xwcstoi W arg with
          | some fd => Res.ok (W.isatty fd)
          | none => Res.ok false) = ⟨v, false⟩ := h
        cases hx : xwcstoi W arg with
        | none =>
          rw [hx] at h'
          cases h'
          refine .noTerminal (fun fd hfd => ?_)
          by_cases hr : -(2 ^ 31) ≤ fd ∧ fd < 2 ^ 31
          · rw [(xwcstoi_iff W arg fd).2 ⟨hfd, hr⟩] at hx
            cases hx
          · omega
        | some fd =>
          rw [hx] at h'
          cases h'
          obtain ⟨h1, h2, h3⟩ := (xwcstoi_iff W arg fd).1 hx
          exact .terminal fd h1 h2 h3
      case inr.inr.inr.inr.inr.inr.inr.inr.inr.inr.inr.inr.inr.inr.inr.inr.inr.inr.inr.inr.inr.inr =>
        have h := congrArg Res.val h
        have h : arg.isEmpty = v := h
        subst h
        have : arg.isEmpty = decide (arg = []) := by cases arg <;> rfl
        rw [this]
        exact .empty
      all_goals
        cases hc : W.convertible arg with
        | false =>
          simp [hc] at h
          cases h
        | true =>
          simp [hc] at h
          cases h
          exact .file _ _ (by decide) hc
  · rintro ⟨s, rfl, hu⟩
    have hm := unary_mem hu
    rw [if_neg (by rw [(isUnary_iff _).2 hm]; simp)]
    cases hu with
    | nonempty =>
      show Res.ok (!arg.isEmpty) = _
      cases arg <;> rfl
    | empty =>
      show Res.ok (arg.isEmpty) = _
      cases arg <;> rfl
    | terminal fd h1 h2 h3 =>
      show (match xwcstoi W arg with
          | some fd => Res.ok (W.isatty fd)
          | none => Res.ok false) = _
      rw [(xwcstoi_iff W arg fd).2 ⟨h1, h2, h3⟩]
      rfl
    | noTerminal h =>
      show (match xwcstoi W arg with
          | some fd => Res.ok (W.isatty fd)
          | none => Res.ok false) = _
      cases hx : xwcstoi W arg with
      | none => rfl
      | some fd =>
        obtain ⟨h1, h2, h3⟩ := (xwcstoi_iff W arg fd).1 hx
        have := h fd h1
        omega
    | optionExists name e => subst e; rfl
    | optionOn h =>
      show Res.ok (testOption W arg) = _
      rw [testOption_other W arg h]
      rfl
    | file op c hm hc =>
      simp only [List.mem_cons, Prod.mk.injEq, List.not_mem_nil, or_false] at hm
      rcases hm with h | h | h | h | h | h | h | h | h | h | h | h | h | h | h | h | h | h | h <;>
        obtain ⟨rfl, rfl⟩ := h <;> simp [hc] <;> rfl

end Yash.TestBuiltin
