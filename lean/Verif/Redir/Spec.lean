import Verif.Redir.Model
/-!
# Specification of redirections
-/
set_option autoImplicit false

namespace Yash.Redir.Spec

open Syntax (Redir FileRedir)

/-- What the user can refer to by file descriptors. -/
abbrev View (D : Type) := Nat → Option D

/-- What a redirection does. -/
inductive Act (D : Type) where
  /-- The descriptor refers to something that has been opened for it. -/
  | opened (n : Nat) (d : D)
  /-- `n` becomes a copy of `m`. -/
  | copied (n m : Nat)
  /-- The descriptor is closed. -/
  | closed (n : Nat)
  /-- The descriptors are the ends of a new pipe. -/
  | piped (out inp : Nat) (dOut dIn : D)

variable {σ D : Type}

/-- The descriptors afterwards: only those that are mentioned change. -/
def Act.apply : Act D → View D → View D
  | .opened n d, t => fun k => if k = n then some d else t k
  | .copied n m, t => fun k => if k = n then t m else t k
  | .closed n, t => fun k => if k = n then none else t k
  | .piped out inp dOut dIn, t => fun k => if k = out then some dOut else if k = inp then some dIn else t k

/-- The descriptors that a redirection changes. -/
def Act.targets : Act D → List Nat
  | .opened n _ => [n]
  | .copied n _ => [n]
  | .closed n => [n]
  | .piped out inp _ _ => [out, inp]

/-- The redirection stands for the action. -/
inductive Means (E : Env σ D) : σ → Redir → Act D → σ → Prop
  | file (x x' x'' : σ) (type : FileRedir) (n : Nat) (w : Syntax.Word) (name : List Char) (d : D) :
    type = .input ∨ type = .output ∨ type = .clobber ∨ type = .append ∨ type = .inout →
    E.filename x w = (x', some name) → E.openFile x' type name = (x'', some d) →
    Means E x (.file type n w) (.opened n d) x''
  | herestr (x x' x'' : σ) (n : Nat) (w : Syntax.Word) (name : List Char) (d : D) :
    E.filename x w = (x', some name) → E.hereStr x' name = (x'', some d) →
    Means E x (.file .herestr n w) (.opened n d) x''
  | heredoc (x x' : σ) (tabs : Bool) (n : Nat) (delim : List Char) (content : Syntax.Word) (d : D) :
    E.hereDoc x content = (x', some d) → Means E x (.heredoc tabs n delim content) (.opened n d) x'
  | proc (x x' : σ) (isIn : Bool) (n : Nat) (c : Syntax.Embed) (d : D) :
    E.process x isIn c = (x', some d) → Means E x (.proc isIn n c) (.opened n d) x'
  | copy (x x' : σ) (type : FileRedir) (n m : Nat) (w : Syntax.Word) (name : List Char) :
    type = .dupin ∨ type = .dupout →
    E.filename x w = (x', some name) → name ≠ ['-'] → E.toInt name = some (m : Int) →
    Means E x (.file type n w) (.copied n m) x'
  | close (x x' : σ) (type : FileRedir) (n : Nat) (w : Syntax.Word) :
    type = .dupin ∨ type = .dupout →
    E.filename x w = (x', some ['-']) → Means E x (.file type n w) (.closed n) x'
  | pipe (x x' x'' : σ) (n m : Nat) (w : Syntax.Word) (name : List Char) (dIn dOut : D) :
    E.filename x w = (x', some name) → E.toInt name = some (m : Int) → n ≠ m → E.newPipe x' = (x'', dIn, dOut) →
    Means E x (.file .pipe n w) (.piped n m dOut dIn) x''

/-- The redirections stand for the actions, in order. -/
inductive MeansAll (E : Env σ D) : σ → List Redir → List (Act D) → σ → Prop
  | nil (x : σ) : MeansAll E x [] [] x
  | cons (x x' x'' : σ) (r : Redir) (rs : List Redir) (a : Act D) (as : List (Act D)) :
    Means E x r a x' → MeansAll E x' rs as x'' → MeansAll E x (r :: rs) (a :: as) x''

/-- The descriptors as the user sees them: those that the shell uses for itself are not available. -/
def view (s : St D) : View D := fun n => if s.shell n then none else (s.fds n).map Entry.desc

/-- The shell's record of its own descriptors is right, and exactly these are closed when a command is executed. -/
structure Sane (E : Env σ D) (s : St D) : Prop where
  /-- Open descriptors are below the limit. -/
  bounded : ∀ n, s.fds n ≠ none → n < E.limit
  /-- The shell's descriptors are open, out of the way, and closed by `execve`. -/
  own : ∀ n, s.shell n = true → E.min ≤ n ∧ ∃ e, s.fds n = some e ∧ e.cloexec = true
  /-- The user's descriptors are passed to commands. -/
  user : ∀ n, s.shell n = false → ∀ e, s.fds n = some e → e.cloexec = false
  /-- `shellfdmax`. -/
  top : (s.max = -1 ∧ ∀ n, s.shell n = false) ∨
    ∃ m : Nat, s.max = m ∧ s.shell m = true ∧ ∀ n, s.shell n = true → n ≤ m

/-- The descriptors that a program inherits. -/
def inherited (s : St D) : View D := fun n =>
  match s.fds n with
  | some e => if e.cloexec then none else some e.desc
  | none => none

/-- The number of descriptors that the shell can still use for itself. -/
def spare (E : Env σ D) (s : St D) : Nat :=
  ((List.range E.limit).filter fun n => decide (E.min ≤ n) && (s.fds n).isNone).length

/-- A command has run in the shell process.  It may have opened, closed and replaced any of the user's descriptors, but
has left alone those of the shell, which it cannot refer to. -/
structure Ran (E : Env σ D) (before after : St D) : Prop where
  shell : after.shell = before.shell
  max : after.max = before.max
  own : ∀ n, before.shell n = true → after.fds n = before.fds n
  sane : Sane E after

/-- The redirections that the theorems are about: their descriptors are valid, and the output side of `n>>|m` is not
among the descriptors that the shell may want for itself. -/
structure Usual (E : Env σ D) (rs : List Redir) : Prop where
  valid : ∀ r, r ∈ rs → target r < E.limit
  low : ∀ r, r ∈ rs → ∀ fd w, r = .file .pipe fd w → fd < E.min

end Yash.Redir.Spec
