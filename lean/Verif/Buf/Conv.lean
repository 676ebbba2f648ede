import Verif.Buf.Model
/-!
# Model of the conversions and of formatting (strbuf.c)

On the blocks of `Buf.Model`: every write is checked against the size of the block. The functions of the C library are modelled by what they write and return: `wcrtomb`, `wcsnrtombs`
and `mbsrtowcs` by a character encoding (`Codec`), `vsnprintf` and `vswprintf` by the text that the format and the arguments stand for. Strings are lists without terminator.
-/
set_option autoImplicit false

namespace Yash.Buf

/-- A character encoding: bytes `B`, wide characters `W`, shift states `σ`. `enc` is `wcrtomb` for characters that are not null; `reset` is what it writes for a null character before the
null byte; `max` is `MB_CUR_MAX`; `dec` is `mbrtowc` on a non-empty string: the number of bytes, the character and the new state. `none` is the error `EILSEQ`. -/
structure Codec (B W σ : Type) where
  init : σ
  enc : σ → W → Option (List B × σ)
  reset : σ → List B
  max : Nat
  dec : σ → List B → Option (Nat × W × σ)

variable {B W σ : Type}

/-- How `wcsnrtombs` and `mbsrtowcs` stop: at the end of the string (the pointer becomes `NULL`), at the limit, or at what cannot be converted; in the latter cases with the rest of
the string. -/
inductive Stop (A σ : Type) where
  | ended (ps : σ)
  | limit (rest : List A) (ps : σ)
  | invalid (rest : List A) (ps : σ)

/-- `wcsnrtombs(dst, &s, n, len, ps)`: what is written, without the null byte, and why it stops. -/
def wcsnrtombs (C : Codec B W σ) : List W → Nat → Nat → σ → List B × Stop W σ
  | s, 0, _, ps => ([], .limit s ps)
  | [], _ + 1, len, ps => if (C.reset ps).length + 1 ≤ len then (C.reset ps, .ended C.init) else ([], .limit [] ps)
  | c :: s, n + 1, len, ps =>
    match C.enc ps c with
    | none => ([], .invalid (c :: s) ps)
    | some (bs, ps') =>
      if bs.length ≤ len then
        let r := wcsnrtombs C s n (len - bs.length) ps'
        (bs ++ r.1, r.2)
      else ([], .limit (c :: s) ps)

/-- `mbsrtowcs(dst, &s, len, ps)`: what is written, without the null character, and why it stops. -/
def mbsrtowcs (C : Codec B W σ) : List B → Nat → σ → List W × Stop B σ
  | s, 0, ps => ([], .limit s ps)
  | [], _ + 1, _ => ([], .ended C.init)
  | b :: s, len + 1, ps =>
    match C.dec ps (b :: s) with
    | none => ([], .invalid (b :: s) ps)
    | some (k, w, ps') =>
      let r := mbsrtowcs C ((b :: s).drop k) len ps'
      (w :: r.1, r.2)

/-- `assert(buf->contents[buf->length] == '\0')` -/
def assertNul {α : Type} [DecidableEq α] (k : Kind α) (b : Buffer α) : Option Unit := if b.cells[b.length]? = some (some k.nul) then some () else none

/-- strbuf.c:161-181 `sb_wccat`: the result tells if it is successful. For a null character, `c` is `none`. -/
def sbWccat [DecidableEq B] (k : Kind B) (C : Codec B W σ) (b : Buffer B) (c : Option W) (ps : σ) : Option (Buffer B × Bool × σ) := do
  let b ← ensureMax k b (b.length + C.max)
  match c with
  | some c =>
    match C.enc ps c with
    | none =>
      let cells ← poke b.cells b.length k.nul
      some ({ b with cells }, false, ps)
    | some (bs, ps') =>
      let cells ← blit b.cells b.length (bs.map some)
      if ¬(0 < bs.length ∧ bs.length ≤ b.maxlength - b.length) then none else
      let cells ← poke cells (b.length + bs.length) k.nul
      let b := { b with cells, length := b.length + bs.length }
      assertNul k b
      some (b, true, ps')
  | none =>
    let bs := C.reset ps ++ [k.nul]
    let cells ← blit b.cells b.length (bs.map some)
    if ¬(0 < bs.length ∧ bs.length ≤ b.maxlength - b.length) then none else
    let b := { b with cells, length := b.length + bs.length - 1 }
    assertNul k b
    some (b, true, C.init)

/-- strbuf.c:188-222 `sb_wcsncat` with `HAVE_WCSNRTOMBS`: the loop, at most `fuel` rounds. The result is `none` for `NULL`, or the rest of the string. -/
def sbWcsncat [DecidableEq B] (k : Kind B) (C : Codec B W σ) : Nat → Buffer B → List W → Nat → σ → Option (Buffer B × Option (List W) × σ)
  | 0, _, _, _, _ => none
  | fuel + 1, b, s, n, ps =>
    match wcsnrtombs C s n (b.maxlength - b.length) ps with
    | (w, .invalid rest ps') => do
      let cells ← blit b.cells b.length (w.map some)
      let cells ← poke cells b.length k.nul
      let b := { b with cells }
      assertNul k b
      some (b, some rest, ps')
    | (w, .ended ps') => do
      let cells ← blit b.cells b.length ((w ++ [k.nul]).map some)
      let b := { b with cells, length := b.length + w.length }
      assertNul k b
      some (b, none, ps')
    | (w, .limit rest ps') => do
      let cells ← blit b.cells b.length (w.map some)
      let b := { b with cells, length := b.length + w.length }
      if s.length - rest.length > n then none else
      let n := n - (s.length - rest.length)
      if n = 0 then
        let cells ← poke b.cells b.length k.nul
        let b := { b with cells }
        assertNul k b
        some (b, none, ps')
      else
        let b ← ensureMax k b (b.maxlength + C.max)
        sbWcsncat k C fuel b rest n ps'

/-- The loop of `wb_mbscat` (strbuf.c:425-434), at most `fuel` rounds. -/
def mbscatLoop (k : Kind W) (C : Codec B W σ) : Nat → Buffer W → List B → σ → Option (Buffer W × Option (List B))
  | 0, _, _, _ => none
  | fuel + 1, b, s, ps =>
    match mbsrtowcs C s (b.maxlength - b.length + 1) ps with
    | (w, .invalid rest _) => do
      let cells ← blit b.cells b.length (w.map some)
      some ({ b with cells }, some rest)
    | (w, .ended _) => do
      let cells ← blit b.cells b.length ((w ++ [k.nul]).map some)
      some ({ b with cells, length := b.length + w.length }, none)
    | (w, .limit rest ps') => do
      let cells ← blit b.cells b.length (w.map some)
      let b := { b with cells, length := b.length + w.length }
      let b ← ensureMax k b (b.maxlength + 1)
      mbscatLoop k C fuel b rest ps'

/-- strbuf.c:418-438 `wb_mbscat`. -/
def wbMbscat (k : Kind W) (C : Codec B W σ) (fuel : Nat) (b : Buffer W) (s : List B) : Option (Buffer W × Option (List B)) := do
  let (b, r) ← mbscatLoop k C fuel b s C.init
  let cells ← poke b.cells b.length k.nul
  some ({ b with cells }, r)

/-- strbuf.c:506-518 `malloc_wcsntombs`: `some none` is `NULL`. -/
def mallocWcsntombs [DecidableEq B] (k : Kind B) (C : Codec B W σ) (fuel : Nat) (s : List W) (n : Nat) : Option (Option (Buffer B)) := do
  let b ← initWithMax k 15
  let (b, r, _) ← sbWcsncat k C fuel b s n C.init
  match r with
  | none => some (some b)
  | some _ => some none

/-- strbuf.c:544-554 `malloc_mbstowcs`. -/
def mallocMbstowcs (k : Kind W) (C : Codec B W σ) (fuel : Nat) (s : List B) : Option (Option (Buffer W)) := do
  let b ← initWithMax k 15
  let (b, r) ← wbMbscat k C fuel b s
  match r with
  | none => some (some b)
  | some _ => some none

variable {α : Type}

/-- `vsnprintf(dst, size, ...)` at the index `i`: the text, cut to fit, with a terminator, and its whole length. If formatting fails, the result is negative (`none`) and
some garbage is written. -/
def vsnprintf (k : Kind α) (text : Option (List α)) (garbage : List α) (cells : List (Option α)) (i size : Nat) : Option (List (Option α) × Option Nat) :=
  match text with
  | some t => (blit cells i ((t.take (size - 1) ++ [k.nul]).map some)).map fun c => (c, some t.length)
  | none => (blit cells i ((garbage.take size).map some)).map fun c => (c, none)

/-- strbuf.c:260-294 `sb_vprintf`; the result is negative if `none`. -/
def sbVprintf [DecidableEq α] (k : Kind α) (b : Buffer α) (text : Option (List α)) (garbage : List α) : Option (Buffer α × Option Nat) := do
  let rest := b.maxlength - b.length + 1
  let (cells, result) ← vsnprintf k text garbage b.cells b.length rest
  let b := { b with cells }
  let (b, result, rest) ←
    match result with
    | some r =>
      if rest ≤ r then do
        let b ← ensureMax k b (b.length + r)
        let rest := b.maxlength - b.length + 1
        let (cells, result) ← vsnprintf k text garbage b.cells b.length rest
        some ({ b with cells }, result, rest)
      else some (b, result, rest)
    | none => some (b, result, rest)
  match result with
  | some r =>
    if r < rest then
      let b := { b with length := b.length + r }
      assertNul k b
      some (b, some r)
    else none
  | none =>
    let cells ← poke b.cells b.length k.nul
    let b := { b with cells }
    assertNul k b
    some (b, none)

/-- `vswprintf(dst, size, ...)`: if the text does not fit, the result is negative, or on some systems (`tells`) the length of the text; then some garbage is written. -/
def vswprintf (k : Kind α) (tells : Bool) (text : Option (List α)) (garbage : List α) (cells : List (Option α)) (i size : Nat) : Option (List (Option α) × Option Nat) :=
  match text with
  | some t =>
    if t.length < size then (blit cells i ((t ++ [k.nul]).map some)).map fun c => (c, some t.length)
    else (blit cells i ((garbage.take size).map some)).map fun c => (c, if tells then some t.length else none)
  | none => (blit cells i ((garbage.take size).map some)).map fun c => (c, none)

/-- The loop of `wb_vwprintf` (strbuf.c:451-474), with the number of rounds that are left. -/
def vwprintfLoop (k : Kind α) (tells : Bool) (text : Option (List α)) (garbage : List α) : Nat → Buffer α → Option Nat → Option (Buffer α × Option Nat)
  | 0, b, result => some (b, result)
  | rounds + 1, b, _ => do
    let rest := b.maxlength - b.length + 1
    let (cells, result) ← vswprintf k tells text garbage b.cells b.length rest
    let b := { b with cells }
    match result with
    | some r =>
      if r < rest then some (b, some r)
      else do
        let b ← ensureMax k b (b.length + r)
        vwprintfLoop k tells text garbage rounds b (some r)
    | none => do
      let b ← ensureMax k b (b.length + 2 * rest)
      vwprintfLoop k tells text garbage rounds b none

/-- strbuf.c:444-481 `wb_vwprintf`. -/
def wbVwprintf [DecidableEq α] (k : Kind α) (tells : Bool) (b : Buffer α) (text : Option (List α)) (garbage : List α) : Option (Buffer α × Option Nat) := do
  let (b, result) ← vwprintfLoop k tells text garbage 20 b none
  match result with
  | some r =>
    let b := { b with length := b.length + r }
    assertNul k b
    some (b, some r)
  | none =>
    let cells ← poke b.cells b.length k.nul
    let b := { b with cells }
    assertNul k b
    some (b, none)

/-- `while (*elem != L'\0') *s++ = *elem++;` (strbuf.c:627-628, 631-632) -/
def copyString (cells : List (Option α)) (i : Nat) : List α → Option (List (Option α) × Nat)
  | [] => some (cells, i)
  | c :: s => do
    let cells ← poke cells i c
    copyString cells (i + 1) s

/-- The loop of `joinwcsarray` (strbuf.c:625-634). -/
def joinLoop (padding : List α) (cells : List (Option α)) (i : Nat) : List (List α) → Option (List (Option α) × Nat)
  | [] => some (cells, i)
  | e :: es => do
    let (cells, i) ← copyString cells i e
    if es ≠ [] then
      let (cells, i) ← copyString cells i padding
      joinLoop padding cells i es
    else joinLoop padding cells i es

/-- strbuf.c:611-638 `joinwcsarray`: the block. -/
def joinwcsarray [DecidableEq α] (k : Kind α) (array : List (List α)) (padding : List α) : Option (List (Option α)) := do
  let ccount := array.foldl (fun n e => n + e.length) 0
  let ccount := if array.length > 0 then ccount + padding.length * (array.length - 1) else ccount
  let (cells, i) ← joinLoop padding (List.replicate (ccount + 1) none) 0 array
  poke cells i k.nul

end Yash.Buf
