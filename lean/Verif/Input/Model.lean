/-!
# Model of reading lines from a file, `input.c` lines 96-231

The functions read bytes from a file descriptor, convert them to wide characters with `mbrtowc` and
stop after a newline.

* The converter is any state machine that takes one byte at a time (`Decoder`); `mbrtowc` is its
  iteration, as the C standard describes it.  The state after an invalid sequence, which the
  standard leaves unspecified, is a parameter of the machine.
* The file is its contents and an offset.  Nobody else changes the contents or moves the offset
  while a line is being read.  (Between two lines anybody may.)
* What the system does is a list of events (`Ev`), one for each time that the code waits for input
  and reads: interruptions, errors, and how many bytes `read` gives.  A list that is too short
  means that the code is still waiting (`none`).
* Characters already in the caller's buffer stay what they are; `Result.text` is what is added.
-/
set_option autoImplicit false

namespace Yash.Input

/-- A byte of a file. -/
abbrev Byte := UInt8

/-- What one byte does in the conversion to wide characters. -/
inductive Step (S : Type) where
  | more (s : S)
  | char (c : Char) (s : S)
  | bad (s : S)
deriving DecidableEq

/-- A locale's conversion of bytes to wide characters; `S` is `mbstate_t`. -/
structure Decoder (S : Type) where
  step : S → Byte → Step S

/-- The results of `mbrtowc`: `0`, `(size_t) -1`, `(size_t) -2` and the number of bytes, less one,
of a character; with the new state. -/
inductive Conv (S : Type) where
  | nul (s : S)
  | invalid (s : S)
  | incomplete (s : S)
  | char (c : Char) (n : Nat) (s : S)

/-- `mbrtowc` (C17 7.29.6.3.2), as called at input.c:160-162. -/
def mbrtowc {S : Type} (D : Decoder S) (s : S) : List Byte → Conv S
  | [] => .incomplete s
  | b :: bs =>
    match D.step s b with
    | .char c s' => if c = '\x00' then .nul s' else .char c 0 s'
    | .bad s' => .invalid s'
    | .more s' =>
      match mbrtowc D s' bs with
      | .char c n s'' => .char c (n + 1) s''
      | r => r

/-- input.h:91-96 `struct input_file_info_T`: `pending` is `buf` from `bufpos` to `bufmax`. -/
structure Info (S : Type) where
  pending : List Byte
  size : Nat
  state : S

/-- An open file: its bytes, the offset, and whether it is a regular file. -/
structure File where
  data : List Byte
  pos : Nat
  regular : Bool

/-- What happens at one pass of input.c:123-151.
`interrupted`: `wait_for_input` was interrupted (128-133);
`waitError`: `wait_for_input` failed (134-136);
`again`: `read` failed with `EINTR` or `EAGAIN` (141-146);
`readError`: `read` failed otherwise (147-148);
`data k`: `read` was successful and would give `k` bytes if there are so many. -/
inductive Ev where
  | interrupted
  | waitError
  | again
  | readError
  | data (k : Nat)
deriving DecidableEq

/-- input.h:28-33 `inputresult_T` (without `INPUT_INTERRUPTED`, which these functions don't
return). -/
inductive Status where
  | ok
  | eof
  | error
deriving DecidableEq, Repr

/-- How the conversion of the buffer ends (input.c:163-176). -/
inductive Stop where
  | line
  | nul
  | invalid
  | more
deriving DecidableEq

/-- The state of the function while it converts. -/
structure Progress (S : Type) where
  state : S
  pending : List Byte
  text : List Char

/-- input.c:156-176, with 120-121: the conversion of the bytes in the buffer until it has to be
filled again or the function ends.  In the case of `incomplete` the code reads more bytes over the
ones in the buffer without changing `bufpos`. -/
def convert {S : Type} (D : Decoder S) (s : S) (p : List Byte) (acc : List Char) :
    Stop × Progress S :=
  if hp : p = [] then (.more, ⟨s, [], acc⟩)
  else
    match mbrtowc D s p with
    | .nul s' => (.nul, ⟨s', p, acc⟩)
    | .invalid s' => (.invalid, ⟨s', p, acc⟩)
    | .incomplete s' => (.more, ⟨s', p, acc⟩)
    | .char c n s' =>
      if c = '\n' then (.line, ⟨s', p.drop (n + 1), acc ++ [c]⟩)
      else convert D s' (p.drop (n + 1)) (acc ++ [c])
termination_by p.length
decreasing_by
  have : p.length ≠ 0 := fun h => hp (List.eq_nil_of_length_eq_zero h)
  simp; omega

/-- What the call leaves: the status, the characters that were added, the offset of the file, and
the new `state` and `pending` of the `struct input_file_info_T`. -/
structure Result (S : Type) where
  status : Status
  text : List Char
  pos : Nat
  pending : List Byte
  state : S

/-- input.c:182-186, the label `end`. -/
def finish {S : Type} (status : Status) (pos : Nat) (q : Progress S) : Result S :=
  ⟨if q.text ≠ [] then .ok else status, q.text, pos, q.pending, q.state⟩

/-- input.c:120-177, from the label `read_input` on: wait and read; then convert. -/
def fill {S : Type} (D : Decoder S) (data : List Byte) (size : Nat) (pos : Nat) :
    List Ev → Progress S → Option (Result S)
  | [], _ => none
  | .interrupted :: sched, q => fill D data size pos sched q
  | .again :: sched, q => fill D data size pos sched q
  | .waitError :: _, q => some (finish .error pos q)
  | .readError :: _, q => some (finish .error pos q)
  | .data k :: sched, q =>
    let chunk := (data.drop pos).take (min (max k 1) size)
    if chunk = [] then some (finish .eof pos q)
    else
      match convert D q.state chunk q.text with
      | (.line, q) => some (finish .eof (pos + chunk.length) q)
      | (.nul, q) => some (finish .eof (pos + chunk.length) q)
      | (.invalid, q) => some (finish .error (pos + chunk.length) q)
      | (.more, q) => fill D data size (pos + chunk.length) sched q

/-- input.c:117-187, `read_input` when it does not call `optimized_read_input`. -/
def plain {S : Type} (D : Decoder S) (f : File) (info : Info S) (sched : List Ev) :
    Option (Result S) :=
  if info.pending = [] then fill D f.data info.size f.pos sched ⟨info.state, [], []⟩
  else
    match convert D info.state info.pending [] with
    | (.line, q) => some (finish .eof f.pos q)
    | (.nul, q) => some (finish .eof f.pos q)
    | (.invalid, q) => some (finish .error f.pos q)
    | (.more, q) => fill D f.data info.size f.pos sched q

/-- `lseek (fd, -diff, SEEK_CUR)`; it fails, and leaves the offset, if the new offset would be
negative. -/
def rewind (pos diff : Nat) : Nat := if diff ≤ pos then pos - diff else pos

/-- input.c:202-231 `optimized_read_input`; `bufsiz` is `BUFSIZ`, which is greater than one, so
that `read_input` does not come back here. -/
def optimized {S : Type} (D : Decoder S) (bufsiz : Nat) (f : File) (info : Info S)
    (sched : List Ev) : Option (Result S) :=
  match plain D f { info with size := bufsiz } sched with
  | none => none
  | some r =>
    some { r with
      pos := if r.pending ≠ [] then rewind r.pos r.pending.length else r.pos
      pending := [] }

/-- input.c:111-187 `read_input`, with 190-197 `is_seekable_file`. -/
def readInput {S : Type} (D : Decoder S) (bufsiz : Nat) (f : File) (info : Info S)
    (sched : List Ev) : Option (Result S) :=
  if info.size = 1 && f.regular then optimized D bufsiz f info sched else plain D f info sched

/-- The file and the `struct input_file_info_T` after a call. -/
def after {S : Type} (f : File) (info : Info S) (r : Result S) : File × Info S :=
  ({ f with pos := r.pos }, { info with pending := r.pending, state := r.state })

/-- Calls of `read_input` one after another, each with its own list of events; the results. -/
def readLines {S : Type} (D : Decoder S) (bufsiz : Nat) :
    File → Info S → List (List Ev) → Option (List (Status × List Char) × File × Info S)
  | f, info, [] => some ([], f, info)
  | f, info, sched :: scheds =>
    match readInput D bufsiz f info sched with
    | none => none
    | some r =>
      match readLines D bufsiz (after f info r).1 (after f info r).2 scheds with
      | none => none
      | some (out, w) => some ((r.status, r.text) :: out, w)

end Yash.Input
