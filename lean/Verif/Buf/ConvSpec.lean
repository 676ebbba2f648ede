import Verif.Buf.Conv
/-! # Specification of conversions -/
set_option autoImplicit false

namespace Yash.Buf.Spec

variable {B W σ : Type}

/-- What the C standard says about the numbers of bytes: a character takes at least one and at most `MB_CUR_MAX` bytes, and so does a null character. -/
structure Lawful (C : Codec B W σ) : Prop where
  enc : ∀ ps c bs ps', C.enc ps c = some (bs, ps') → 0 < bs.length ∧ bs.length ≤ C.max
  reset : ∀ ps, (C.reset ps).length + 1 ≤ C.max
  dec : ∀ ps s n c ps', C.dec ps s = some (n, c, ps') → 0 < n ∧ n ≤ s.length

/-- Converted character by character, the string becomes these bytes. -/
inductive Encodes (C : Codec B W σ) : σ → List W → List B → σ → Prop where
  | nil (ps : σ) : Encodes C ps [] [] ps
  | cons {ps ps1 ps2 : σ} {c : W} {s : List W} {x y : List B} : C.enc ps c = some (x, ps1) → Encodes C ps1 s y ps2 → Encodes C ps (c :: s) (x ++ y) ps2

/-- The first characters in the bytes are these; then `rest` is left. -/
inductive Decodes (C : Codec B W σ) : σ → List B → List W → σ → List B → Prop where
  | nil (ps : σ) (s : List B) : Decodes C ps s [] ps s
  | cons {ps ps1 ps2 : σ} {x y rest : List B} {c : W} {w : List W} :
      C.dec ps (x ++ y) = some (x.length, c, ps1) → Decodes C ps1 y w ps2 rest → Decodes C ps (x ++ y) (c :: w) ps2 rest

end Yash.Buf.Spec
