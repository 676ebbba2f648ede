import Verif.Getopts.Model
import Verif.Variable.Spec
/-!
# Specification of getopts
-/
set_option autoImplicit false

namespace Yash.Getopts.Spec

open Yash.Variable (Name Word Shell)
open Yash.Variable.Spec (varAt Visible Sane)

/-- An option specification: the option characters, each with whether it takes an argument. -/
abbrev Options := List (Char × Bool)

/-- The option string that the user writes; a colon at the beginning asks for silence. -/
def Written (silent : Bool) (opts : Options) (s : List Char) : Prop :=
  s = (if silent then [':'] else []) ++
    opts.flatMap fun o => if o.2 then [o.1, ':'] else [o.1]

/-- `c` is not an option. -/
def Unknown (opts : Options) (c : Char) : Prop := ∀ b, (c, b) ∉ opts

/-- `c` is an option that takes an argument (`b`) or takes none; the first mention counts. -/
def Known (opts : Options) (c : Char) (b : Bool) : Prop :=
  ∃ l r, opts = l ++ (c, b) :: r ∧ Unknown l c

/-- What is to be reported. -/
inductive Event where
  | flag (c : Char)
  | withArg (c : Char) (arg : Word)
  | invalid (c : Char)
  | missing (c : Char)
deriving DecidableEq, Repr

/-- The events of an argument, given the option characters in it that are left and the arguments after
it, and how many of the latter are used up. -/
inductive Cluster (opts : Options) (rest : List Word) : List Char → List Event → Nat → Prop where
  | nil : Cluster opts rest [] [] 0
  | invalid (c : Char) (cs : List Char) (evs : List Event) (k : Nat) :
      Unknown opts c → Cluster opts rest cs evs k → Cluster opts rest (c :: cs) (.invalid c :: evs) k
  | flag (c : Char) (cs : List Char) (evs : List Event) (k : Nat) :
      Known opts c false → Cluster opts rest cs evs k →
      Cluster opts rest (c :: cs) (.flag c :: evs) k
  | attached (c : Char) (cs : List Char) :
      Known opts c true → cs ≠ [] → Cluster opts rest (c :: cs) [.withArg c cs] 0
  | separate (c : Char) (w : Word) (ws : List Word) :
      Known opts c true → rest = w :: ws → Cluster opts rest [c] [.withArg c w] 1
  | missing (c : Char) : Known opts c true → rest = [] → Cluster opts rest [c] [.missing c] 0

/-- The events of an argument list, in order, and the number of arguments before the first operand:
options end before an argument that does not begin with a hyphen or is a single hyphen, and after an
argument `--`. -/
inductive Parse (opts : Options) : List Word → List Event → Nat → Prop where
  | nil : Parse opts [] [] 0
  | operand (w : Word) (ws : List Word) :
      w.head? ≠ some '-' ∨ w = ['-'] → Parse opts (w :: ws) [] 0
  | separator (ws : List Word) : Parse opts (['-', '-'] :: ws) [] 1
  | cluster (c : Char) (cs : List Char) (ws : List Word) (evs evs' : List Event) (j k : Nat) :
      c :: cs ≠ ['-'] → Cluster opts ws (c :: cs) evs j → Parse opts (ws.drop j) evs' k →
      Parse opts (('-' :: c :: cs) :: ws) (evs ++ evs') (1 + j + k)

/-- The value of a variable that is a scalar. -/
def Value (sh : Shell) (n : Name) (w : Word) : Prop :=
  ∃ d v, Visible sh n d v ∧ v.value = .scalar (some w)

/-- No variable of this name exists in any scope. -/
def Absent (sh : Shell) (n : Name) : Prop := ∀ d, varAt sh d n = none

/-- An ordinary variable, or no variable at all: it exists in one scope at most, and is neither
read-only nor protected. -/
def Ordinary (sh : Shell) (n : Name) : Prop :=
  ∀ d v, varAt sh d n = some v →
    v.readonly = false ∧ v.nodelete = false ∧ ∀ e u, varAt sh e n = some u → e = d

/-- The variables as the script sees them after an event has been reported. -/
def Shows (silent : Bool) (name : Name) (sh : Shell) : Event → Prop
  | .flag c => Value sh name [c] ∧ Absent sh "OPTARG".toList
  | .withArg c w => Value sh name [c] ∧ Value sh "OPTARG".toList w
  | .invalid c =>
    Value sh name ['?'] ∧ if silent then Value sh "OPTARG".toList [c] else Absent sh "OPTARG".toList
  | .missing c =>
    if silent then Value sh name [':'] ∧ Value sh "OPTARG".toList [c]
    else Value sh name ['?'] ∧ Absent sh "OPTARG".toList

/-- Calls of `getopts` that succeed one after another, with what is seen after each. -/
inductive Calls (call : Shell → Option (Shell × Bool)) (shows : Shell → Event → Prop) :
    Shell → List Event → Shell → Prop where
  | nil (sh : Shell) : Calls call shows sh [] sh
  | cons (sh sh' sh'' : Shell) (ev : Event) (evs : List Event) :
      call sh = some (sh', true) → shows sh' ev → Calls call shows sh' evs sh'' →
      Calls call shows sh (ev :: evs) sh''

end Yash.Getopts.Spec
