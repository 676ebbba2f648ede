import Verif.Source.Model
import Verif.Path.WhichSpec
/-!
# Specification of `.` and `exec`
-/
set_option autoImplicit false

namespace Yash.Source.Spec

variable {α : Type}

/-- The arguments consist of options, given by their letters with arguments, and operands. -/
def Given (E : Env α) (opts : List Xgetopt.Opt) (args : List Str) (letters : List (Char × Option Str)) (operands : List Str) : Prop :=
  ∃ reports used, Xgetopt.Spec.parse (E.getopt opts) none args = ⟨reports, used, operands, .done⟩ ∧ letters = reports.map fun o => (o.1.short, o.2)

/-- An option is among those given. -/
def Has (letters : List (Char × Option Str)) (c : Char) : Prop := ∃ a, (c, a) ∈ letters

/-- The file that `.` opens; `b` is the name as the system takes it. -/
inductive Sources (E : Env α) (letters : List (Char × Option Str)) (name b : Str) : Str → Prop where
  /-- an absolute name with `-L` -/
  | absolute (hL : Has letters 'L') {n : Str} (h : b = '/' :: n) : Sources E letters name b b
  | autoload (hL : Has letters 'L') (h : ∀ n, b ≠ '/' :: n) (hn : b ≠ []) {p : Str} (hp : Path.Spec.FirstMatch E.readable (E.loadpath.getD []) b p) : Sources E letters name b p
  | direct (hL : ¬Has letters 'L') (h : '/' ∈ name) : Sources E letters name b b
  | search (hL : ¬Has letters 'L') (h : '/' ∉ name) {p : Str} (hp : Path.Spec.FirstMatch E.readable (E.path.getD []) b p) : Sources E letters name b p
  /-- a file of the current directory, if there is none in `PATH` -/
  | here (hL : ¬Has letters 'L') (h : '/' ∉ name) (hp : ∀ p, ¬Path.Spec.FirstMatch E.readable (E.path.getD []) b p) (hx : E.posix = false) : Sources E letters name b b

/-- The name does not contain slashes after the conversion if it had none, and is not empty then. -/
def PlainBytes (E : Env α) : Prop := ∀ n b, E.bytes n = some b → ('/' ∈ b ↔ '/' ∈ n) ∧ (b = [] ↔ n = [])

/-- A file can change the positional parameters of the environment in which it is executed only; when it has been executed, the environments that it
has opened are closed. -/
def KeepsOthers (E : Env α) : Prop := ∀ p a s s', E.execInput p a s = some s' → s'.frames.tail = s.frames.tail

/-- `execve` succeeds with these. -/
def Succeeds (E : Env α) (path : Str) (argv env : List Str) : Prop := E.execve path argv env = none

/-- The last argument of the option `-a`. -/
def AsName (letters : List (Char × Option Str)) (as : Option Str) : Prop :=
  (¬Has letters 'a' ∧ as = none) ∨ ∃ before after, letters = before ++ ('a', as) :: after ∧ ¬Has after 'a'

end Yash.Source.Spec
