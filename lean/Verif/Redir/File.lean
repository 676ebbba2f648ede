import Verif.Syntax.Ast
/-!
# Opening files for redirections (`open_file`)

Other processes may change the file system between any two system calls.
-/
set_option autoImplicit false

namespace Yash.Redir.File

open Syntax (FileRedir)

/-- What a path is: nothing, a symbolic link to nothing, or (after following links) a file. -/
inductive Link where
  | missing
  | dangling
  | to (id : Nat)
deriving DecidableEq

/-- A file system.  Files have numbers; those from `next` on are unused. -/
structure Fs (P : Type) where
  dir : P → Link
  regular : Nat → Bool
  data : Nat → List Nat
  next : Nat

/-- The flags of `open` (`O_WRONLY` or `O_RDWR`, `O_CREAT`, `O_EXCL`, `O_TRUNC`, `O_APPEND`). -/
structure Flags where
  write : Bool := false
  creat : Bool := false
  excl : Bool := false
  trunc : Bool := false
  append : Bool := false
deriving DecidableEq

inductive Err where
  | exist
  | noent
  | other
deriving DecidableEq

variable {P : Type} [DecidableEq P]

/-- A new empty regular file. -/
def create (path : P) (fs : Fs P) : Fs P :=
  { dir := fun p => if p = path then .to fs.next else fs.dir p
    regular := fun n => if n = fs.next then true else fs.regular n
    data := fun n => if n = fs.next then [] else fs.data n
    next := fs.next + 1 }

/-- `open` as specified by POSIX; `deny`: it fails for some other reason. -/
def sysOpen (path : P) (f : Flags) (deny : Bool) (fs : Fs P) : Fs P × Except Err Nat :=
  match fs.dir path with
  | .missing =>
    if f.creat then (if deny then (fs, .error .other) else (create path fs, .ok fs.next))
    else (fs, .error .noent)
  | .dangling =>
    if f.creat then
      (if f.excl then (fs, .error .exist) else if deny then (fs, .error .other) else (create path fs, .ok fs.next))
    else (fs, .error .noent)
  | .to id =>
    if f.creat && f.excl then (fs, .error .exist)
    else if deny then (fs, .error .other)
    else if f.trunc && fs.regular id then ({ fs with data := fun n => if n = id then [] else fs.data n }, .ok id)
    else (fs, .ok id)

/-- The flags for a redirection (redir.c:353-371). -/
def flagsOf (clobber : Bool) : FileRedir → Flags
  | .input => {}
  | .output =>
    if clobber then { write := true, creat := true, trunc := true } else { write := true, creat := true, excl := true }
  | .clobber => { write := true, creat := true, trunc := true }
  | .append => { write := true, creat := true, append := true }
  | .inout => { write := true, creat := true }
  | _ => {}

/-- The rest of the system. -/
structure World (P : Type) where
  /-- What other processes do between the first and the second call of `open`, and before `fstat`. -/
  others1 : Fs P → Fs P
  others2 : Fs P → Fs P
  deny1 : Bool
  deny2 : Bool
  /-- `fstat` fails. -/
  nostat : Bool
  /-- `open_socket` (redir.c:540-599) for paths that begin with `/dev/tcp/` or `/dev/udp/`. -/
  socket : P → Bool

/-- What has been opened. -/
inductive Opened where
  | file (id : Nat) (f : Flags)
  | socket
deriving DecidableEq

/-- The result, the file system, and the states before and after each system call. -/
structure Run (P : Type) where
  res : Option Opened
  fs : Fs P
  calls : List (Fs P × Fs P)

/-- Socket redirections (redir.c:516-528). -/
def orSocket (W : World P) (path : P) (r : Run P) : Run P :=
  match r.res with
  | some _ => r
  | none => if W.socket path then { r with res := some .socket } else r

/-- The second attempt (redir.c:491-513). -/
def retry (W : World P) (path : P) (f : Flags) (fs : Fs P) : Run P :=
  let f := { f with creat := false, excl := false, trunc := false }
  match sysOpen path f W.deny2 fs with
  | (fs', .error _) => ⟨none, fs', [(fs, fs')]⟩
  | (fs', .ok id) =>
    let fs2 := W.others2 fs'
    if !W.nostat && fs2.regular id then ⟨none, fs2, [(fs, fs')]⟩
    else ⟨some (.file id f), fs2, [(fs, fs')]⟩

/-- `open_file` (redir.c:482-531). -/
def openFile (W : World P) (path : P) (f : Flags) (fs : Fs P) : Run P :=
  match sysOpen path f W.deny1 fs with
  | (fs', .ok id) => ⟨some (.file id f), fs', [(fs, fs')]⟩
  | (fs', .error e) =>
    if f.excl && decide (e = .exist) then
      let r := retry W path f (W.others1 fs')
      orSocket W path { r with calls := (fs, fs') :: r.calls }
    else orSocket W path ⟨none, fs', [(fs, fs')]⟩

/-! ## Here-documents -/

/-- `write_all` (redir.c:102-112); how much each call of `write` takes is given by the list, of which zero means one
byte; the calls all succeed. -/
def writeAll (f : List Nat → Nat) : Nat → List Nat → List Nat × List Nat
  | 0, d => ([], d)
  | _ + 1, [] => ([], [])
  | n + 1, b :: d =>
    let k := f (b :: d) + 1
    let (w, rest) := writeAll f n ((b :: d).drop k)
    ((b :: d).take k ++ w, rest)

/-- `open_herestring` (redir.c:776-830): what can be read from the descriptor.  `pipeBuf`: `PIPE_BUF`; `pipe`, `temp`: a
pipe and a temporary file can be made.  No writes fail. -/
def hereString (pipeBuf : Nat) (null pipe temp : Bool) (f : List Nat → Nat) (s : List Nat) (newline : Bool) : Option (List Nat) :=
  if s = [] && !newline && null then some []
  else
    let d := if newline then s ++ [10] else s
    if decide (d.length ≤ pipeBuf) && pipe then some d
    else if temp then some (writeAll f d.length d).1
    else none

end Yash.Redir.File
