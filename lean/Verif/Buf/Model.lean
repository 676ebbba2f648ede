/-!
# Model of `plist.c`, `plist.h` and of the editing functions of `strbuf.c`

Pointer lists, byte buffers and wide-string buffers are the same data structure: a heap block of
`maxlength + 1` cells, a `length`, and a terminator (`NULL`, `'\0'`, `L'\0'`) after the last
element.  They differ only in the element type, the terminator and the minimum growth step, which
are parameters here (`Kind`).

A cell is `none` while uninitialised.  An operation returns `none` if it would access a cell
outside the block (undefined behaviour in C).

Simplifications: `size_t` sums do not overflow (`add` in util.h aborts the shell if they do) and
allocation succeeds; the `restrict` requirement (the source array is not part of the buffer) is
built in because the source is a separate list.
-/
set_option autoImplicit false

namespace Yash.Buf

/-- What distinguishes the three buffers: the terminator and the minimum growth step
(plist.c:119 `+ 6`, strbuf.c:91 `+ 10`, strbuf.c:352 `+ 8`). -/
structure Kind (α : Type) where
  nul : α
  growth : Nat

/-- plist.h:31-34 `plist_T`, strbuf.h `xstrbuf_T`, `xwcsbuf_T`. -/
structure Buffer (α : Type) where
  cells : List (Option α)
  length : Nat
  maxlength : Nat

variable {α : Type}

/-- `contents[i] = v` with bounds check. -/
def poke (cells : List (Option α)) (i : Nat) (v : α) : Option (List (Option α)) :=
  if i < cells.length then some (cells.set i (some v)) else none

/-- `realloc` to `n` cells: old cells are kept as far as they fit, new ones are uninitialised. -/
def resize (cells : List (Option α)) (n : Nat) : List (Option α) :=
  cells.take n ++ List.replicate (n - cells.length) none

/-- Overwrites the cells from `i` on with `src`; fails if they do not fit. -/
def blit (cells : List (Option α)) (i : Nat) (src : List (Option α)) : Option (List (Option α)) :=
  if i + src.length ≤ cells.length then
    some (cells.take i ++ src ++ cells.drop (i + src.length))
  else none

/-- `memmove(c + dst, c + src, n)`. -/
def memmove (cells : List (Option α)) (dst src n : Nat) : Option (List (Option α)) :=
  if src + n ≤ cells.length then blit cells dst ((cells.drop src).take n) else none

/-- plist.c:88-95 `pl_initwithmax`, strbuf.c:47-55 `sb_initwithmax`, 307-314 `wb_initwithmax`. -/
def initWithMax (k : Kind α) (max : Nat) : Option (Buffer α) := do
  let cells ← poke (List.replicate (max + 1) none) 0 k.nul
  some { cells, length := 0, maxlength := max }

/-- plist.c:100-108 `pl_setmax`, strbuf.c:71-80 `sb_setmax`, 330-338 `wb_setmax`. -/
def setMax (k : Kind α) (b : Buffer α) (newmax : Nat) : Option (Buffer α) := do
  let cells := resize b.cells (newmax + 1)
  let cells ← poke cells newmax k.nul
  some { cells, maxlength := newmax,
         length := if newmax < b.length then newmax else b.length }

/-- plist.c:112-123 `pl_ensuremax`, strbuf.c:84-95 `sb_ensuremax`, 342-353 `wb_ensuremax`. -/
def ensureMax (k : Kind α) (b : Buffer α) (max : Nat) : Option (Buffer α) :=
  if max ≤ b.maxlength then some b
  else
    let len15 := b.maxlength + b.maxlength / 2
    let max := if max < len15 then len15 else max
    let max := if max < b.maxlength + k.growth then b.maxlength + k.growth else max
    setMax k b max

/-- plist.c:127-133 `pl_clear`; `sb_clear`, `wb_clear` of strbuf.h.  The elements passed to `freer`
are returned. -/
def clear (k : Kind α) (b : Buffer α) : Option (Buffer α × List (Option α)) := do
  let freed := b.cells.take b.length
  let cells ← poke b.cells 0 k.nul
  some ({ b with cells, length := 0 }, freed)

/-- plist.h:144-151 `pl_truncate`, strbuf.h `sb_truncate`, `wb_truncate` (the assertion is the
`if`). -/
def truncate (k : Kind α) (b : Buffer α) (newlength : Nat) : Option (Buffer α) :=
  if newlength ≤ b.length then do
    let cells ← poke b.cells newlength k.nul
    some { b with cells, length := newlength }
  else none

/-- strbuf.c:102-114 `sb_replace_force`, 360-372 `wb_replace_force`, and the second half of
`pl_replace` (plist.c:149-155).  `a` is the list of the first `an` source elements. -/
def replaceForce (k : Kind α) (b : Buffer α) (i ln : Nat) (a : List α) : Option (Buffer α) := do
  if b.length < ln then none else
  let newlength := b.length - ln + a.length
  let b ← ensureMax k b newlength
  if b.length < i + ln then none else
  let cells ← memmove b.cells (i + a.length) (i + ln) (b.length - (i + ln) + 1)
  let cells ← blit cells i (a.map some)
  some { b with cells, length := newlength }

/-- plist.c:142-156 `pl_replace`; `sb_replace` (strbuf.c:123-133) and `wb_replace` (381-391) after
their length computation. -/
def replace (k : Kind α) (b : Buffer α) (i ln : Nat) (a : List α) : Option (Buffer α) :=
  let i := if i > b.length then b.length else i
  let ln := if ln > b.length - i then b.length - i else ln
  replaceForce k b i ln a

/-- plist.c:160-166 `pl_add`, strbuf.c:137-143 `sb_ccat`, 395-401 `wb_wccat`. -/
def add (k : Kind α) (b : Buffer α) (p : α) : Option (Buffer α) := do
  let b ← ensureMax k b (b.length + 1)
  let cells ← poke b.cells b.length p
  let cells ← poke cells (b.length + 1) k.nul
  some { b with cells, length := b.length + 1 }

/-- strbuf.c:147-154 `sb_ccat_repeat` (`memset` is a `blit` of equal bytes). -/
def addRepeat (k : Kind α) (b : Buffer α) (c : α) (n : Nat) : Option (Buffer α) := do
  let b ← ensureMax k b (b.length + n)
  let cells ← blit b.cells b.length (List.replicate n (some c))
  let cells ← poke cells (b.length + n) k.nul
  some { b with cells, length := b.length + n }

/-- plist.h:158-162 `pl_ninsert`. -/
def ninsert (k : Kind α) (b : Buffer α) (i : Nat) (a : List α) : Option (Buffer α) :=
  replace k b i 0 a

/-- plist.h:176-179 `pl_ncat`; `sizeMax` is `Size_max`. -/
def ncat (k : Kind α) (sizeMax : Nat) (b : Buffer α) (a : List α) : Option (Buffer α) :=
  replace k b sizeMax 0 a

/-- plist.h:192-195 `pl_remove`. -/
def remove (k : Kind α) (b : Buffer α) (i n : Nat) : Option (Buffer α) :=
  replace k b i n []

/-- plist.c:29-35 `plcount` and `wcslen` on the block: the number of cells before the first
terminator; fails if there is none in the block or an uninitialised cell is read. -/
def count [DecidableEq α] (k : Kind α) : List (Option α) → Option Nat
  | [] => none
  | none :: _ => none
  | some a :: r => if a = k.nul then some 0 else (count k r).map (· + 1)

end Yash.Buf
