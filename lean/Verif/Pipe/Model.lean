import Verif.Redir.Model
/-!
# Pipes between processes (`exec.c`, `redir.c`)

How the shell connects the commands of a pipeline, a command substitution and a process redirection.
A process is its table of file descriptors (`Redir.Fds`); `fork` copies the table.
-/
set_option autoImplicit false

namespace Yash.Pipe

open Redir (Fds Entry lowest xclose xdup2)

variable {D : Type}

/-- The system: the limit of descriptors, what the ends of the pipe number `i` are, and which calls
fail for reasons other than the limit of descriptors. -/
structure Sys (D : Type) where
  limit : Nat
  reader : Nat → D
  writer : Nat → D
  pipeFails : Nat → Bool
  forkFails : Nat → Bool
  /-- what `open("/dev/null")` opens, or `none` if it fails -/
  null : Option D

/-- The system call `pipe`: the two lowest free descriptors. -/
def sysPipe (S : Sys D) (i : Nat) (t : Fds D) : Option (Nat × Nat × Fds D) :=
  if S.pipeFails i then none
  else
    match lowest S.limit 0 t with
    | none => none
    | some r =>
      match lowest S.limit 0 (t.set r (some ⟨S.reader i, false⟩)) with
      | none => none
      | some w => some (r, w, (t.set r (some ⟨S.reader i, false⟩)).set w (some ⟨S.writer i, false⟩))

/-- The system call `dup`; `none` is -1. -/
def dup (S : Sys D) (fd : Nat) (t : Fds D) : Option Nat × Fds D :=
  match t fd with
  | none => (none, t)
  | some e =>
    match lowest S.limit 0 t with
    | none => (none, t)
    | some n => (some n, t.set n (some { e with cloexec := false }))

/-- `xclose` of a variable that may be -1; then `close` fails with `EBADF`, which `xclose` ignores. -/
def closeOpt (fd : Option Nat) (t : Fds D) : Fds D :=
  match fd with
  | none => t
  | some fd => xclose fd t

/-- exec.c:77-81 `pipeinfo_T`; `none` is -1. -/
structure Info where
  fromPrev : Option Nat
  toIn : Option Nat
  toOut : Option Nat

/-- exec.c:82 `PIPEINFO_INIT` -/
def Info.init : Info := ⟨none, none, none⟩

/-- exec.c:588-608: the ends of the pipe are moved so that they are not 0 or 1.  The result is the
new values of `pi_tonextfds`, or `none` if descriptors cannot be copied. -/
def moveEnds (S : Sys D) (origin origout : Nat) (t : Fds D) : Option (Nat × Nat) × Fds D :=
  if origin < 2 ∨ origout < 2 then
    let a := if origin < 2 then dup S origin t else (some origin, t)
    let b := if origout < 2 then dup S origout a.2 else (some origout, a.2)
    let t := if origin < 2 then xclose origin b.2 else b.2
    let t := if origout < 2 then xclose origout t else t
    match a.1 with
    | none => (none, closeOpt b.1 t)
    | some r =>
      match b.1 with
      | none => (none, xclose r t)
      | some w => (some (r, w), t)
  else (some (origin, origout), t)

/-- exec.c:574-616 `next_pipe`, for the command number `i`. -/
def nextPipe (S : Sys D) (i : Nat) (next : Bool) (pi : Info) (t : Fds D) : Info × Fds D :=
  let t := closeOpt pi.fromPrev t
  let t := closeOpt pi.toOut t
  if next then
    match sysPipe S i t with
    | none => (⟨pi.toIn, none, none⟩, t)
    | some (r, w, t) =>
      match moveEnds S r w t with
      | (none, t) => (⟨pi.toIn, none, none⟩, t)
      | (some (r, w), t) => (⟨pi.toIn, some r, some w⟩, t)
  else (⟨pi.toIn, none, none⟩, t)

/-- exec.c:619-631 `connect_pipes` -/
def connectPipes (S : Sys D) (pi : Info) (t : Fds D) : Fds D :=
  let t := match pi.fromPrev with
    | some fd => xclose fd (xdup2 S.limit fd 0 t).1
    | none => t
  let t := match pi.toOut with
    | some fd => xclose fd (xdup2 S.limit fd 1 t).1
    | none => t
  closeOpt pi.toIn t

/-- redir.c:922-936 `maybe_redirect_stdin_to_devnull`; `none`: the assertion fails. -/
def stdinToNull (S : Sys D) (jobControl : Bool) (t : Fds D) : Option (Fds D) :=
  if jobControl then some t
  else
    match S.null with
    | none => some (xclose 0 t)
    | some d =>
      match lowest S.limit 0 (xclose 0 t) with
      | none => some (xclose 0 t)
      | some n => if n = 0 then some ((xclose 0 t).set n (some ⟨d, false⟩)) else none

/-- exec.c:427-433: the table of a process that executes a command of the pipeline. -/
def child (S : Sys D) (async jobControl : Bool) (pi : Info) (t : Fds D) : Option (Fds D) :=
  if async ∧ pi.fromPrev = none then stdinToNull S jobControl (connectPipes S pi t)
  else some (connectPipes S pi t)

/-- What has become of a command. -/
inductive Proc (D : Type) where
  /-- executed in a process with the table -/
  | runs (t : Fds D)
  /-- `fork` failed -/
  | notForked
  /-- an assertion fails -/
  | broken

/-- exec.c:417-449: the loop of `exec_commands` for the commands `i`, `i + 1`, …, of which there are
`n`.  `short` is `short_circuit`: the last command is executed by the shell itself.  The result is
the processes, `pipe` and the shell's table. -/
def execLoop (S : Sys D) (async jobControl short : Bool) :
    Nat → Nat → Info → Fds D → List (Proc D) × Info × Fds D
  | 0, _, pi, t => ([], pi, t)
  | n + 1, i, pi, t =>
    let r := nextPipe S i (n != 0) pi t
    let p := if S.forkFails i ∧ ¬ (n = 0 ∧ short) then .notForked
      else match child S async jobControl r.1 r.2 with
        | some t => .runs t
        | none => .broken
    let q := execLoop S async jobControl short n (i + 1) r.1 r.2
    (p :: q.1, q.2)

/-- exec.c:410-454: the processes of a pipeline of `n` commands, and the table of the shell after
they have been created (it is of no interest if the shell has executed the last command itself).
`none`: an assertion fails. -/
def pipeline (S : Sys D) (async jobControl short : Bool) (n : Nat) (t : Fds D) :
    Option (List (Proc D) × Fds D) :=
  let r := execLoop S async jobControl short n 0 .init t
  if r.2.1.toIn = none ∧ r.2.1.toOut = none then some (r.1, closeOpt r.2.1.fromPrev r.2.2) else none

/-- The processes of a command substitution or a process redirection. -/
inductive Fork (D : Type) where
  /-- nothing is executed -/
  | failed (shell : Fds D)
  /-- the table of the shell, the descriptor it keeps, and the table of the child; a child without
  table exits at once -/
  | forked (shell : Fds D) (fd : Nat) (child : Option (Fds D))

/-- exec.c:1640-1646, redir.c:864-870 and 872-878: the child moves its end of the pipe. -/
def childEnd (S : Sys D) (close fd target : Nat) (t : Fds D) : Option (Fds D) :=
  let t := xclose close t
  if fd ≠ target then
    let r := xdup2 S.limit fd target t
    if r.2 then some (xclose fd r.1) else none
  else some t

/-- exec.c:1571-1656 `exec_command_substitution` up to the reading of the output and the execution of
the commands, and redir.c:835-884 `open_process_redirection` with `RT_PROCIN`. -/
def readFrom (S : Sys D) (t : Fds D) : Fork D :=
  match sysPipe S 0 t with
  | none => .failed t
  | some (r, w, t') =>
    if S.forkFails 0 then .failed (xclose w (xclose r t'))
    else .forked (xclose w t') r (childEnd S r w 1 t')

/-- redir.c:835-884 `open_process_redirection` with `RT_PROCOUT`. -/
def writeTo (S : Sys D) (t : Fds D) : Fork D :=
  match sysPipe S 0 t with
  | none => .failed t
  | some (r, w, t') =>
    if S.forkFails 0 then .failed (xclose w (xclose r t'))
    else .forked (xclose r t') w (childEnd S w r 0 t')

end Yash.Pipe
