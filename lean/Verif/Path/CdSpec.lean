import Verif.Path.Cd
import Verif.Path.CanonSpec
import Verif.Path.WhichSpec
/-!
# What is expected of `cd`, `pwd` and the variable `PWD`
-/
set_option autoImplicit false

namespace Yash.Path.Spec

open Variable (Name Word Shell getPathArray)
open Variable.Spec (Visible varAt Sane)

/-- `$n` is `w`. -/
def Value (sh : Shell) (n : Name) (w : Word) : Prop :=
  ∃ d v, Visible sh n d v ∧ v.value = .scalar (some w)

/-- The system calls tell the truth about a file system. -/
structure Truthful {N : Type} (fs : FileSystem N) (sys : Sys N) : Prop where
  /-- A slash and two slashes are directories. -/
  roots : fs.start ['/'] ≠ none ∧ fs.start ['/', '/'] ≠ none
  chdir : ∀ cwd p n, sys.chdir cwd p = some n → Denotes fs cwd p n
  isDir : ∀ cwd p, sys.isDir cwd p = true ↔ ∃ n, Denotes fs cwd p n
  getcwd : ∀ cwd p, sys.getcwd cwd = some p → p.head? = some '/' ∧ Denotes fs cwd p cwd
  sameFile : ∀ cwd p q, sys.sameFile cwd p q = true → ∀ n, Denotes fs cwd p n ↔ Denotes fs cwd q n

/-- `$PWD` is an absolute path of the working directory. -/
def Named {N : Type} (fs : FileSystem N) (w : World N) : Prop :=
  ∃ p, Value w.sh "PWD".toList p ∧ p.head? = some '/' ∧ Denotes fs w.cwd p w.cwd

/-- No variable with the name is read-only. -/
def Writable (sh : Shell) (n : Name) : Prop := ∀ d v, varAt sh d n = some v → v.readonly = false

/-- All variables with other names are the same. -/
def SameExcept (names : List Name) (sh sh' : Shell) : Prop :=
  ∀ m, m ∉ names → ∀ d, varAt sh' d m = varAt sh d m

/-- The path that an operand of `cd` stands for: an operand that begins with a slash or with a dot or
dot-dot component stands for itself; for others the directories of `CDPATH` are searched, or only the
current directory if there is no `CDPATH`; if nothing is found, the operand stands for itself. -/
def StandsFor (isDir : Word → Bool) (cdpath : Option (List Word)) (operand p : Word) : Prop :=
  let fixed := operand = [] ∨ operand.head? = some '/' ∨ (comps operand).head? = some dot ∨
    (comps operand).head? = some dotdot
  (fixed → p = operand) ∧
  (¬ fixed → FirstMatch isDir (cdpath.getD [[]]) operand p ∨
    (p = operand ∧ ∀ q, ¬ FirstMatch isDir (cdpath.getD [[]]) operand q))

/-- The components of an absolute path after `cd`: those of the path, or those of `$PWD` and then those
of the path. -/
def joined (pwd p : Word) : List Comp := if p.head? = some '/' then comps p else comps pwd ++ comps p

end Yash.Path.Spec

namespace Yash.Path.Spec

open Variable (Name Word Shell)

/-- The path of the working directory before `cd`: `$PWD`, or what the system says if `$PWD` is not an
absolute path. -/
def Before {N : Type} (sys : Sys N) (w : World N) (p : Word) : Prop :=
  p.head? = some '/' ∧ (Value w.sh "PWD".toList p ∨
    ((∀ q, Value w.sh "PWD".toList q → q.head? ≠ some '/') ∧ sys.getcwd w.cwd = some p))

/-- `$PWD` is a path of the working directory, or is no absolute path at all. -/
def NotWrong {N : Type} (fs : FileSystem N) (w : World N) : Prop :=
  Named fs w ∨ ∀ p, Value w.sh "PWD".toList p → p.head? ≠ some '/'

end Yash.Path.Spec

namespace Yash.Path.Spec

open Variable (Name Word Shell Map)

/-- The life of a shell: it starts with some environment and sets `PWD`; it executes `cd` and
operations on variables that do not change `PWD`; and files change in such a way that `$PWD` remains a
path of the working directory. -/
inductive Life {N : Type} (seed : Word → Bool) : FileSystem N → World N → Prop where
  | start (fs : FileSystem N) (sys : Sys N) (env : Map Word) (cwd : N) (w : World N) :
      Truthful fs sys → (env.map (·.1)).Nodup → fs.isDir cwd = true → sys.getcwd cwd ≠ none →
      initPwd seed sys ⟨Variable.initEnvironment env, cwd⟩ = some w → Life seed fs w
  | cd (fs : FileSystem N) (sys : Sys N) (posix logical : Bool) (dflt : Option Word)
      (operands : List Word) (w w' : World N) (r : CdResult) :
      Life seed fs w → Truthful fs sys → (logical = false → sys.getcwd w'.cwd ≠ none) →
      Path.cd seed sys posix w logical dflt operands = some (w', r) → Life seed fs w'
  | variable (fs : FileSystem N) (w : World N) (op : Variable.Op) (sh : Shell) (b : Bool) :
      Life seed fs w → Variable.step seed w.sh op = some (sh, b) →
      (∀ p, Value sh "PWD".toList p ↔ Value w.sh "PWD".toList p) → Writable sh "PWD".toList →
      Life seed fs ⟨sh, w.cwd⟩
  | files (fs fs' : FileSystem N) (w : World N) :
      Life seed fs w → (∀ p, Value w.sh "PWD".toList p → Denotes fs' w.cwd p w.cwd) → Life seed fs' w

end Yash.Path.Spec

namespace Yash.Path.Spec

open Variable (Name Word Shell)

/-- The directory that the words after `cd` ask for, and whether it is to be printed: no words ask for the
default directory or the home directory, a hyphen asks for the previous directory, and any other single
word asks for itself. -/
inductive AsksFor (sh : Shell) : Option Word → List Word → Word → Bool → Prop where
  | default (d : Word) : AsksFor sh (some d) [] d false
  | home (d : Word) : Value sh "HOME".toList d → d ≠ [] → AsksFor sh none [] d false
  | back (dflt : Option Word) (d : Word) : Value sh "OLDPWD".toList d → d ≠ [] →
      AsksFor sh dflt ["-".toList] d true
  | operand (dflt : Option Word) (d : Word) : d ≠ "-".toList → AsksFor sh dflt [d] d false

end Yash.Path.Spec
