import Verif.Expand.WordSpec
/-!
# Specification of tilde expansion
-/
set_option autoImplicit false

namespace Yash.Expand.Spec

open Syntax (Word WordUnit)

/-- The directory that `~user` stands for. -/
inductive Directory {σ : Type} (E : Env σ) (s : σ) : List Char → List Char → Prop
  /-- `~` -/
  | home (d : List Char) : E.getvar s "HOME".toList = some d → Directory E s [] d
  /-- `~+` -/
  | pwd (d : List Char) : E.posix = false → E.getvar s "PWD".toList = some d → Directory E s ['+'] d
  /-- `~-` -/
  | oldpwd (d : List Char) : E.posix = false → E.getvar s "OLDPWD".toList = some d → Directory E s ['-'] d
  /-- `~+1`, `~-2`: an entry of the directory stack. -/
  | stack (sign : Char) (n d : List Char) : E.posix = false → sign = '+' ∨ sign = '-' → n ≠ [] → (∀ c ∈ n, c ∉ ['"', '\'', '\\']) →
      E.dirEntry s (sign :: n) = some d → Directory E s (sign :: n) d
  /-- `~user` -/
  | user (u d : List Char) : u ≠ [] → (∀ c ∈ u, c ∉ ['"', '\'', '\\']) →
      (E.posix = false → u ≠ ['+'] ∧ u ≠ ['-'] ∧ (u.head? = some '+' ∨ u.head? = some '-' → E.dirEntry s u = none)) →
      E.homeOf u = some d → Directory E s u d

/-- The word begins with `~user`, which is followed by a slash or by nothing. -/
def Prefix (w : Word) (user : List Char) (rest : Word) : Prop :=
  ∃ t w', w = .str ('~' :: user ++ t) :: w' ∧ rest = .str t :: w' ∧ '/' ∉ user ∧ (t.head? = some '/' ∨ t = [] ∧ w' = [])

/-- What becomes of a part of the value of an assignment between colons. -/
inductive Part {σ : Type} (E : Env σ) (s : σ) : List Char → List Char → Prop
  | tilde (user rest d : List Char) : '/' ∉ user → rest = [] ∨ rest.head? = some '/' → Directory E s user d → Part E s ('~' :: user ++ rest) (d ++ rest)
  | same (x : List Char) : (∀ user rest d, x = '~' :: user ++ rest → '/' ∉ user → rest = [] ∨ rest.head? = some '/' → ¬Directory E s user d) → Part E s x x

/-- What becomes of the parts. -/
inductive Parts {σ : Type} (E : Env σ) (s : σ) : List (List Char) → List (List Char) → Prop
  | nil : Parts E s [] []
  | cons {x out : List Char} {xs outs : List (List Char)} : Part E s x out → Parts E s xs outs → Parts E s (x :: xs) (out :: outs)

/-- Parts with colons between them. -/
def colons : List (List Char) → List Char
  | [] => []
  | [x] => x
  | x :: y :: l => x ++ ':' :: colons (y :: l)

end Yash.Expand.Spec
