import Verif.Expand.TildeProps
/-! # Examples for property C90 -/
set_option autoImplicit false

namespace Yash.Expand.TildeExamples

open Spec (simpleParam Seg Writes wordFields Directory Parts colons glue quotedFields)

/-- The home directory contains a space and an asterisk. -/
def E : Env Unit := { exampleEnv with
  getvar := fun _ n => if n = "HOME".toList then some "/h *".toList else if n = "PWD".toList then some "/p".toList else if n = "OLDPWD".toList then some "/o".toList else none
  homeOf := fun u => if u = "bob".toList then some "/home/bob".toList else if u = "+1".toList then some "/odd".toList else none
  dirEntry := fun _ u => if u = "+1".toList then some "/s".toList else none }

theorem dir_home : Directory E () [] "/h *".toList := .home _ (by decide)
theorem dir_bob : Directory E () "bob".toList "/home/bob".toList := .user _ _ (by decide) (by decide) (fun _ => ⟨by decide, by decide, by decide⟩) (by decide)
example : Directory E () ['+'] "/p".toList := .pwd _ rfl (by decide)
example : Directory E () ['-'] "/o".toList := .oldpwd _ rfl (by decide)
example : Directory E () ['+', '1'] "/s".toList := .stack '+' ['1'] _ rfl (.inl rfl) (by decide) (by decide) (by decide)
/-- In the POSIX mode, `+1` is the name of a user. -/
example : Directory { E with posix := true } () ['+', '1'] "/odd".toList := .user _ _ (by decide) (by decide) (by simp) (by decide)

/-- `~/a"$x"`: the hypotheses of `tilde_word` are met. -/
example : expandMultiple E [.str ['~', '/', 'a', '"'], .param (simpleParam ['x']), .str ['"']] () = .ok () [['/', 'h', ' ', '*', '/', 'a', 'a', ' ', '*']] := by
  have hw : Writes [.chr '/', .chr 'a', .dq [.var ['x']]] [.str ['/', 'a', '"'], .param (simpleParam ['x']), .str ['"']] :=
    .str [['/'], ['a'], ['"']] _ _ (.unit _ _ _ (.str [['"']] _ _ .nil))
  have hp : Spec.Prefix [.str ['~', '/', 'a', '"'], .param (simpleParam ['x']), .str ['"']] [] [.str ['/', 'a', '"'], .param (simpleParam ['x']), .str ['"']] :=
    ⟨['/', 'a', '"'], _, rfl, rfl, by simp, .inl rfl⟩
  have hx : E.get () ['x'] = .scalar ['a', ' ', '*'] := rfl
  have hf : ∀ x ∈ [Seg.chr '/', .chr 'a', .dq [.var ['x']]].flatMap Seg.vars, Fits (E.get () x) := by
    intro x hx
    simp [Seg.vars, Spec.DPart.vars] at hx
    subst hx
    rw [hx]
    exact trivial
  have := tilde_word E cLocale_ok long64_ok () _ [] _ hp _ dir_home _ hw (by simp [Seg.Ok, Spec.DPart.Ok]) (fun _ _ => .inr rfl) hf
  rw [this]
  simp [wordFields, Seg.fields, Spec.content, Spec.DPart.fields, Spec.DPart.vars, quotedFields, glue, hx]

/-- `~` alone is one field, though there are a space and an asterisk in it. -/
example : expandMultiple E [.str ['~']] () = .ok () ["/h *".toList] := by
  rw [tilde_word E cLocale_ok long64_ok () [.str ['~']] [] [.str []] ⟨[], [], rfl, rfl, by simp, .inr ⟨rfl, rfl⟩⟩ _ dir_home [] (.str [] [] [] .nil) (by simp) (by simp) (by simp)]
  rfl

/-- `~no`: the hypotheses of `tilde_not` are met. -/
example : expandMultiple E [.str "~no".toList] () = .ok () ["~no".toList] := by
  rw [tilde_not E cLocale_ok long64_ok () [.str "~no".toList] (by
    rintro user rest d ⟨t, w', h, -, -, ht⟩ hd
    simp only [List.cons.injEq, Syntax.WordUnit.str.injEq, List.cons_append] at h
    obtain ⟨h, rfl⟩ := h
    rcases ht with ht | ⟨rfl, -⟩
    · obtain ⟨t', rfl⟩ := head_slash.1 ht
      have : '/' ∈ "~no".toList := by rw [h]; simp
      revert this; decide
    · have : user = "no".toList := by
        have h' : ['~', 'n', 'o'] = '~' :: (user ++ []) := h
        simp at h'
        exact h'.symm
      subst this
      rw [← tildeHome_iff] at hd
      revert hd
      rw [show tildeHome E () "no".toList = none by decide]
      simp) [.chr '~', .chr 'n', .chr 'o'] (.str [['~'], ['n'], ['o']] [] [] .nil) (by simp [Seg.Ok]) (by simp [Seg.vars]) (by simp [Seg.vars])]
  rfl

/-- `~bob/x:a~:~:~no`: the hypotheses of `tilde_assignment_partial` are met. -/
example : ∀ y ∈ ["~bob/x".toList, "a~".toList, "~".toList, "~no".toList], ':' ∉ y ∧ NoQuotes y := by
  unfold NoQuotes; decide

example : (expandTilde E () .multi false "~bob:x".toList = some ("/home/bob".toList, ":x".toList)) ∧ expandTilde E () .single false "~bob:x".toList = none ∧
    expandTilde E () .single true "~bob".toList = none ∧ expandTilde E () .single true "~bob/".toList = some ("/home/bob".toList, ['/']) ∧
    expandTilde E () .single false "~b\\ob".toList = none := by
  decide

end Yash.Expand.TildeExamples
