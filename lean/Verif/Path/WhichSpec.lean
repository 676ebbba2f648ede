import Verif.Path.Which
import Verif.Variable.Spec
/-!
# What is expected of command search
-/
set_option autoImplicit false

namespace Yash.Path.Spec

open Variable (Word Shell getPathArray)

/-- `p` names the file `name` in the directory `dir`; an empty `dir` is the current directory, and no
second slash is added. -/
def In (dir name p : Word) : Prop :=
  (dir = [] ∧ p = name) ∨
  (∃ d, dir = d ++ ['/'] ∧ p = dir ++ name) ∨
  (dir ≠ [] ∧ (∀ d, dir ≠ d ++ ['/']) ∧ p = dir ++ ['/'] ++ name)

/-- `p` is the file `name` in the first of the directories that has an executable one. -/
def FirstMatch (exec : Word → Bool) (dirs : List Word) (name p : Word) : Prop :=
  ∃ before dir after, dirs = before ++ dir :: after ∧ In dir name p ∧ exec p = true ∧
    ∀ e ∈ before, ∀ q, In e name q → exec q = false

/-- The directories that are searched for commands. -/
def searched (sh : Shell) : List Word := (getPathArray sh.scopes "PATH".toList).getD []

/-- `History seed start h sh`: the events `h`, the last one first, lead from the initialised shell
`start` to `sh`. -/
inductive History (seed : Word → Bool) (start : Shell) : List Event → Shell → Prop where
  | start : Variable.Spec.Reachable seed (fun _ _ => True) start → History seed start [] start
  | event (h : List Event) (sh sh' : Shell) (e : Event) (r : Option Word) :
      History seed start h sh → runEvent seed sh e = some (sh', r) → History seed start (e :: h) sh'

/-- Events that remove a remembered command. -/
def Forgets (name : Word) : Event → Prop
  | .forget n => n = name
  | .forgetAll => True
  | _ => False

/-- In the history `h` there was a search that found `p` for `name` as the first match; since then the
directories have always been the same, and the command has not been forgotten. -/
def FoundBefore (seed : Word → Bool) (start : Shell) (h : List Event) (name p : Word) : Prop :=
  ∃ later earlier force exec sh0,
    h = later ++ .lookup name force exec :: earlier ∧
    History seed start earlier sh0 ∧
    FirstMatch exec (searched sh0) name p ∧
    (∀ e ∈ later, ¬Forgets name e) ∧
    ∀ l1 l2 sh1, later = l1 ++ l2 → History seed start (l2 ++ .lookup name force exec :: earlier) sh1 →
      searched sh1 = searched sh0

/-- What a command name without a slash stands for; `found` is the result of the search in the
directories of `PATH`. -/
def command (builtins : Word → Option BuiltinType) (functions : Word → Bool) (posix : Bool)
    (name : Word) (found : Option Word) : CommandInfo :=
  if builtins name = some .special then .builtin .special
  else if functions name = true then .function
  else if builtins name = some .mandatory then .builtin .mandatory
  else if builtins name = some .elective then .builtin .elective
  else if builtins name = some .extension ∧ posix = false then .builtin .extension
  else
    match found with
    | none => .none
    | some path => if builtins name = some .substitutive then .builtin .substitutive else .external path

end Yash.Path.Spec
