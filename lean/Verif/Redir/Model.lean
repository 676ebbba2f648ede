import Verif.Syntax.Ast
/-!
# Redirections (`redir.c`)

The kernel is a table of file descriptors.  What a descriptor refers to (an open file description) is a value of an
arbitrary type `D`; which description a file, a pipe or a here-document has is decided by oracles.
`open`, `dup` and `pipe` use the lowest free descriptors, as POSIX says.  `close` always succeeds and `dup2` is never
interrupted (the loops in `xclose` and `xdup2` hide interruptions).
-/
set_option autoImplicit false

namespace Yash.Redir

open Syntax (Word Embed FileRedir Redir)

/-- An open descriptor: what it refers to, and whether it is closed by `execve` (`FD_CLOEXEC`). -/
structure Entry (D : Type) where
  desc : D
  cloexec : Bool := false

/-- The open file descriptors of the process. -/
abbrev Fds (D : Type) := Nat → Option (Entry D)

/-- The process and the shell's record of its own descriptors (redir.c:120-127). -/
structure St (D : Type) where
  fds : Fds D
  /-- `shellfds`. -/
  shell : Nat → Bool
  /-- `shellfdmax`. -/
  max : Int

/-- The system and the rest of the shell. -/
structure Env (σ D : Type) where
  /-- The number of descriptors a process may have (`RLIMIT_NOFILE`). -/
  limit : Nat
  /-- `FD_SETSIZE`. -/
  setSize : Nat
  /-- `shellfdmin`. -/
  min : Nat
  posix : Bool
  /-- `expand_redir_filename` (redir.c:439-452). -/
  filename : σ → Word → σ × Option (List Char)
  /-- `xstrtoi` with base 10. -/
  toInt : List Char → Option Int
  /-- `open_file` (redir.c:482-531): what has been opened. -/
  openFile : σ → FileRedir → List Char → σ × Option D
  /-- Whether the description may be read and written (`F_GETFL`). -/
  readable : D → Bool
  writable : D → Bool
  /-- `pipe`: the two ends, for reading and writing. -/
  newPipe : σ → σ × D × D
  /-- `open_heredocument` (redir.c:754-768). -/
  hereDoc : σ → Word → σ × Option D
  /-- `open_herestring` (redir.c:776-830). -/
  hereStr : σ → List Char → σ × Option D
  /-- `open_process_redirection` (redir.c:835-884): the end of the pipe that the shell keeps. -/
  process : σ → Bool → Embed → σ × Option D

variable {σ D : Type}

/-! ## The kernel -/

/-- The table with one entry changed. -/
def Fds.set (t : Fds D) (fd : Nat) (e : Option (Entry D)) : Fds D := fun n => if n = fd then e else t n

/-- The lowest free descriptor that is not less than `min`. -/
def lowest (limit min : Nat) (t : Fds D) : Option Nat :=
  (List.range limit).find? fun n => decide (min ≤ n) && (t n).isNone

/-- `dup2` for a valid `oldfd`; fails if `newfd` is beyond the limit. -/
def dup2 (limit old new : Nat) (t : Fds D) : Option (Fds D) :=
  match t old with
  | none => none
  | some e =>
    if limit ≤ new then none
    else if old = new then some t
    else some (t.set new (some { e with cloexec := false }))

/-- `xclose` (redir.c:61-75). -/
def xclose (fd : Nat) (t : Fds D) : Fds D := t.set fd none

/-- `xdup2` (redir.c:81-97): the table, and whether it has succeeded. -/
def xdup2 (limit old new : Nat) (t : Fds D) : Fds D × Bool :=
  let t := if old ≠ new then xclose new t else t
  match dup2 limit old new t with
  | none => (t, false)
  | some t => (t, true)

/-! ## Shell descriptors -/

/-- `add_shellfd` (redir.c:176-183). -/
def addShell (E : Env σ D) (fd : Nat) (s : St D) : St D :=
  { s with
    shell := if fd < E.setSize then fun n => if n = fd then true else s.shell n else s.shell
    max := if s.max < fd then fd else s.max }

/-- The loop in `remove_shellfd` (redir.c:191-195), which begins by decrementing `shellfdmax`; `none`: `FD_ISSET` is
used out of bounds. -/
def nextMax (setSize : Nat) (shell : Nat → Bool) : Nat → Option Int
  | 0 => some (-1)
  | n + 1 => if n < setSize then (if shell n then some n else nextMax setSize shell n) else none

/-- `remove_shellfd` (redir.c:187-196). -/
def removeShell (E : Env σ D) (fd : Nat) (s : St D) : Option (St D) :=
  let shell := if fd < E.setSize then fun n => if n = fd then false else s.shell n else s.shell
  if s.max = fd then
    match nextMax E.setSize shell fd with
    | none => none
    | some m => some { s with shell := shell, max := m }
  else some { s with shell := shell }

/-- `is_shellfd` (redir.c:201-204). -/
def isShell (E : Env σ D) (fd : Nat) (s : St D) : Bool := decide (E.setSize ≤ fd) || s.shell fd

/-- Closes the shell descriptors below `n` (redir.c:211-213). -/
def closeShell (shell : Nat → Bool) : Nat → Fds D → Fds D
  | 0, t => t
  | n + 1, t => closeShell shell n (if shell n then xclose n t else t)

/-- `clear_shellfds` (redir.c:208-218); `none`: `FD_ISSET` is used out of bounds.  The order in which descriptors are
closed is reversed.  `ttyfd` is left out. -/
def clearShell (E : Env σ D) (leave : Bool) (s : St D) : Option (St D) :=
  if leave then some s
  else if E.setSize ≤ s.max then none
  else some { fds := closeShell s.shell (s.max + 1).toNat s.fds, shell := fun _ => false, max := -1 }

/-- The errors of `copy_as_shellfd`. -/
inductive CopyErr where
  | badf
  | other
deriving DecidableEq

/-- `copy_as_shellfd` (redir.c:223-249) with `F_DUPFD_CLOEXEC`. -/
def copyAsShell (E : Env σ D) (fd : Nat) (s : St D) : Except CopyErr (Nat × St D) :=
  match s.fds fd with
  | none => .error .badf
  | some e =>
    if E.limit ≤ E.min then .error .other
    else
      match lowest E.limit E.min s.fds with
      | none => .error .other
      | some n => .ok (n, addShell E n { s with fds := s.fds.set n (some { e with cloexec := true }) })

/-- `move_to_shellfd` (redir.c:256-266) for a descriptor that is not negative. -/
def moveToShell (E : Env σ D) (fd : Nat) (s : St D) : Option Nat × St D :=
  match copyAsShell E fd s with
  | .error _ => (none, { s with fds := xclose fd s.fds })
  | .ok (n, s) => (some n, { s with fds := xclose fd s.fds })

/-! ## Redirections -/

/-- `savefd_T` (redir.c:287-291); `none` as `copy` is −1. -/
structure Saved where
  orig : Nat
  copy : Option Nat
deriving DecidableEq

/-- `save_fd` (redir.c:455-472). -/
def saveFd (E : Env σ D) (fd : Nat) (save : List Saved) (s : St D) : List Saved × St D :=
  match copyAsShell E fd s with
  | .ok (n, s) => (⟨fd, some n⟩ :: save, s)
  | .error .badf => (⟨fd, none⟩ :: save, s)
  | .error .other => (save, s)

/-- A new descriptor for something that has been opened. -/
def obtain (E : Env σ D) (d : Option D) (s : St D) : Option (Nat × St D) :=
  match d with
  | none => none
  | some d =>
    match lowest E.limit 0 s.fds with
    | none => none
    | some n => some (n, { s with fds := s.fds.set n (some { desc := d }) })

/-- `xisxdigit`. -/
def isXdigit (c : Char) : Bool :=
  ('0' ≤ c && c ≤ '9') || ('a' ≤ c && c ≤ 'f') || ('A' ≤ c && c ≤ 'F')

/-- The number in a redirection (redir.c:622-631 and 691-699). -/
def parseFd (E : Env σ D) (num : List Char) : Option Nat :=
  match num with
  | [] => none
  | c :: _ =>
    if isXdigit c then
      match E.toInt num with
      | none => none
      | some n => if n < 0 then none else some n.toNat
    else none

/-- What `n>&word` asks for. -/
inductive Dup where
  | error
  | close
  | copy (fd : Nat)
deriving DecidableEq

/-- `parse_and_check_dup` (redir.c:613-674). -/
def checkDup (E : Env σ D) (num : List Char) (isIn : Bool) (s : St D) : Dup :=
  if num = ['-'] then .close
  else
    match parseFd E num with
    | none => .error
    | some fd =>
      if isShell E fd s then .error
      else if E.posix then
        match s.fds fd with
        | none => .error
        | some e => if (if isIn then E.readable e.desc else E.writable e.desc) then .copy fd else .error
      else .copy fd

/-- `parse_and_exec_pipe` (redir.c:684-748): the descriptor of the output side, or failure. -/
def execPipe (E : Env σ D) (x : σ) (out : Nat) (num : List Char) (save : List Saved) (s : St D) :
    σ × Option Nat × List Saved × St D :=
  match parseFd E num with
  | none => (x, none, save, s)
  | some inp =>
    if out = inp then (x, none, save, s)
    else if isShell E inp s then (x, none, save, s)
    else
      let (save, s) := saveFd E inp save s
      let (x, dIn, dOut) := E.newPipe x
      match obtain E (some dIn) s with
      | none => (x, none, save, s)
      | some (pin, s1) =>
        match obtain E (some dOut) s1 with
        | none => (x, none, save, s)
        | some (pout, s2) =>
          match (if pout = inp then
              match lowest E.limit 0 s2.fds with
              | none => none
              | some n => some (n, { s2 with fds := xclose pout (s2.fds.set n (some { desc := dOut })) })
            else some (pout, s2) : Option (Nat × St D)) with
          | none => (x, none, save, { s2 with fds := xclose pout (xclose pin s2.fds) })
          | some (pout, s3) =>
            if pin ≠ inp then
              match xdup2 E.limit pin inp s3.fds with
              | (t, false) => (x, none, save, { s3 with fds := xclose pout (xclose pin t) })
              | (t, true) => (x, some pout, save, { s3 with fds := xclose pin t })
            else (x, some pout, save, s3)

/-- The new descriptor is moved to the redirected one (redir.c:420-430). -/
def place (E : Env σ D) (fd target : Nat) (keepopen : Bool) (s : St D) : St D × Bool :=
  if fd = target then (s, true)
  else
    match xdup2 E.limit fd target s.fds with
    | (t, false) => ({ s with fds := t }, false)
    | (t, true) => ({ s with fds := if keepopen then t else xclose fd t }, true)

/-- What has been opened is moved to the redirected descriptor (redir.c:339-358, 371-430). -/
def install (E : Env σ D) (d : Option D) (target : Nat) (s : St D) : St D × Bool :=
  match obtain E d s with
  | none => (s, false)
  | some (n, s) => place E n target false s

/-- The descriptor that is redirected. -/
def target : Redir → Nat
  | .file _ fd _ => fd
  | .heredoc _ fd _ _ => fd
  | .proc _ fd _ => fd

/-- One round of the loop in `open_redirections` (redir.c:322-432). -/
def openOne (E : Env σ D) (r : Redir) (x : σ) (save : List Saved) (s : St D) : σ × List Saved × St D × Bool :=
  if isShell E (target r) s then (x, save, s, false)
  else
    match r with
    | .file type fd w =>
      match E.filename x w with
      | (x, none) => (x, save, s, false)
      | (x, some name) =>
        let (save, s) := saveFd E fd save s
        match type with
        | .dupin | .dupout =>
          match checkDup E name (type = .dupin) s with
          | .error => (x, save, s, false)
          | .close => (x, save, { s with fds := xclose fd s.fds }, true)
          | .copy m =>
            let (s, ok) := place E m fd true s
            (x, save, s, ok)
        | .pipe =>
          match execPipe E x fd name save s with
          | (x, none, save, s) => (x, save, s, false)
          | (x, some p, save, s) =>
            let (s, ok) := place E p fd false s
            (x, save, s, ok)
        | .herestr =>
          let (x, d) := E.hereStr x name
          let (s, ok) := install E d fd s
          (x, save, s, ok)
        | type =>
          let (x, d) := E.openFile x type name
          let (s, ok) := install E d fd s
          (x, save, s, ok)
    | .heredoc _ fd _ content =>
      let (save, s) := saveFd E fd save s
      let (x, d) := E.hereDoc x content
      let (s, ok) := install E d fd s
      (x, save, s, ok)
    | .proc isIn fd c =>
      let (save, s) := saveFd E fd save s
      let (x, d) := E.process x isIn c
      let (s, ok) := install E d fd s
      (x, save, s, ok)

/-- `open_redirections` (redir.c:318-435).  Descriptors that are negative (too large to be parsed) are left out. -/
def openAll (E : Env σ D) : List Redir → σ → List Saved → St D → σ × List Saved × St D × Bool
  | [], x, save, s => (x, save, s, true)
  | r :: rs, x, save, s =>
    match openOne E r x save s with
    | (x, save, s, true) => openAll E rs x save s
    | (x, save, s, false) => (x, save, s, false)

/-- `undo_redirections` (redir.c:887-902); `none`: `FD_ISSET` is used out of bounds. -/
def undo (E : Env σ D) : List Saved → St D → Option (St D)
  | [], s => some s
  | ⟨orig, none⟩ :: save, s => undo E save { s with fds := xclose orig s.fds }
  | ⟨orig, some copy⟩ :: save, s =>
    match removeShell E copy s with
    | none => none
    | some s => undo E save { s with fds := xclose copy (xdup2 E.limit copy orig s.fds).1 }

/-- `clear_savefd` (redir.c:906-918). -/
def clearSaved (E : Env σ D) : List Saved → St D → Option (St D)
  | [], s => some s
  | ⟨_, none⟩ :: save, s => clearSaved E save s
  | ⟨_, some copy⟩ :: save, s =>
    match removeShell E copy s with
    | none => none
    | some s => clearSaved E save { s with fds := xclose copy s.fds }

end Yash.Redir
