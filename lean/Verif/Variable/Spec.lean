import Verif.Variable.Model
/-!
# Specification: what is expected of variables, scopes and the process environment

Scopes are numbered from the outermost: level 0 is the global scope and the innermost scope has the
highest level, so that entering and leaving scopes does not change the level of the other scopes.
-/
set_option autoImplicit false

namespace Yash.Variable.Spec

/-- A sequence of operations in which every operation meets the condition `ok`. -/
inductive Run (seed : Word → Bool) (ok : Shell → Op → Prop) : Shell → Shell → Prop where
  | nil (sh : Shell) : Run seed ok sh sh
  | cons (sh sh' sh'' : Shell) (op : Op) (b : Bool) :
      ok sh op → step seed sh op = some (sh', b) → Run seed ok sh' sh'' → Run seed ok sh sh''

/-- The states that the shell can get into from its start with some environment: by operations each of
which meets the condition `ok`, and by the initialization of `LINENO` and `RANDOM`, which happens
while there is only the global scope. -/
inductive Reachable (seed : Word → Bool) (ok : Shell → Op → Prop) : Shell → Prop where
  | start (env : Map Word) : (env.map (·.1)).Nodup → Reachable seed ok (initEnvironment env)
  | lineno (sh sh' : Shell) : Reachable seed ok sh → sh.scopes.length = 1 →
      initLineno sh = some sh' → Reachable seed ok sh'
  | random (sh sh' : Shell) : Reachable seed ok sh → sh.scopes.length = 1 →
      initRandom sh = some sh' → Reachable seed ok sh'
  | step (sh sh' : Shell) (op : Op) (b : Bool) : Reachable seed ok sh → ok sh op →
      step seed sh op = some (sh', b) → Reachable seed ok sh'

/-- The variable named `n` in the scope of level `d`. -/
def varAt (sh : Shell) (d : Nat) (n : Name) : Option Var :=
  (sh.scopes.reverse[d]?).bind fun s => (s.vars.find? fun e => e.1 = n).map (·.2)

/-- The scope of level `d` exists and is for temporary assignments. -/
def TempAt (sh : Shell) (d : Nat) : Prop := ∃ s, sh.scopes.reverse[d]? = some s ∧ s.temp = true

/-- The scope of level `d` exists and belongs to a function, or is the global one. -/
def PlainAt (sh : Shell) (d : Nat) : Prop := ∃ s, sh.scopes.reverse[d]? = some s ∧ s.temp = false

/-- What `$n` refers to. -/
def Visible (sh : Shell) (n : Name) (d : Nat) (v : Var) : Prop :=
  varAt sh d n = some v ∧ ∀ e, d < e → varAt sh e n = none

/-- The text that the environment of a command gets from a variable. -/
def text (v : Var) : Option Word :=
  match v.value with
  | .scalar w => w
  | .array ws => some (List.intercalate [':'] ws)

/-- `w` is the value of the innermost exported variable named `n` that has a value. -/
def Exports (sh : Shell) (n : Name) (w : Word) : Prop :=
  ∃ d v, varAt sh d n = some v ∧ v.exported = true ∧ text v = some w ∧
    ∀ e u, d < e → varAt sh e n = some u → u.exported = true → text u = none

/-- The value of a name in the process environment. -/
def environAt (sh : Shell) (n : Name) : Option Word :=
  (sh.environ.find? fun e => e.1 = n).map (·.2)

/-- The process environment has, for every name that can be in an environment at all, exactly the
exported value. -/
def EnvironmentAgrees (sh : Shell) : Prop :=
  ∀ n : Name, n ≠ [] → '=' ∉ n → ∀ w, environAt sh n = some w ↔ Exports sh n w

/-- Elements of an exported array are changed in place by `array -d`, `-i`, `-s` or `shift -A`. -/
def EditsExportedArray (sh : Shell) (op : Op) : Prop :=
  ∃ n e d v, (op = .arrayEdit n e ∨ op = .shift n e) ∧ Visible sh n d v ∧ v.exported = true

/-- An operation that cannot concern the variables named `n` in scopes of a level less than `base`:
a temporary assignment; a local declaration while some inner scope belongs to a function; an
assignment while the function scope that holds the variable is an inner one; any other operation on
the variable while an inner one is visible; and the end of an inner scope. -/
def Confined (base : Nat) (n : Name) (sh : Shell) : Op → Prop
  | .assign _ _ .temp _ => True
  | .assign m _ .local _ => m = n → ∃ e, base ≤ e ∧ PlainAt sh e
  | .assign m _ .global _ => m = n → ∃ e, base ≤ e ∧ PlainAt sh e ∧ varAt sh e n ≠ none
  | .typeset m _ t => m = n → ∃ e, base ≤ e ∧ PlainAt sh e ∧ (t.global = true → varAt sh e n ≠ none)
  | .setElement m _ _ => m = n → ∃ e, base ≤ e ∧ varAt sh e n ≠ none
  | .unset m => m = n → ∃ e, base ≤ e ∧ varAt sh e n ≠ none
  | .arrayEdit m _ => m = n → ∃ e, base ≤ e ∧ varAt sh e n ≠ none
  | .shift m _ => m = n → ∃ e, base ≤ e ∧ varAt sh e n ≠ none
  | .read m _ => m = n → ∃ e, base ≤ e ∧ varAt sh e n ≠ none
  | .leave => base + 1 < sh.scopes.length
  | .enter _ => True
  | .allexport _ => True

/-- The level of the scope that an assignment goes to: a global assignment goes to the innermost
function scope (or global scope) that has the variable, or to the global scope if none has it; a
local one to the innermost function scope (or global scope); a temporary one to the innermost scope,
which must be a temporary one. -/
def Target (sh : Shell) (n : Name) : ScopeKind → Nat → Prop
  | .global, d =>
    (PlainAt sh d ∧ varAt sh d n ≠ none ∧ ∀ e, d < e → PlainAt sh e → varAt sh e n = none) ∨
      (d = 0 ∧ ∀ e, PlainAt sh e → varAt sh e n = none)
  | .local, d => PlainAt sh d ∧ ∀ e, d < e → ¬ PlainAt sh e
  | .temp, d => d + 1 = sh.scopes.length ∧ TempAt sh d

/-- Nothing but the variables named `n` changed, and those only in scopes of level `d` or more. -/
def ChangesOnly (n : Name) (d : Nat) (sh sh' : Shell) : Prop :=
  sh'.scopes.length = sh.scopes.length ∧
  (∀ e, TempAt sh' e ↔ TempAt sh e) ∧
  (∀ m e, m ≠ n → varAt sh' e m = varAt sh e m) ∧
  (∀ e, e < d → varAt sh' e n = varAt sh e n)

/-- The states the shell can be in (theorem `C25_sane`): the global scope is not temporary, a
read-only variable is protected from deletion, no variable of a temporary scope is, only variables
named `LINENO` and `RANDOM` have a value computed when it is read, and as long as `$RANDOM` is active
all variables of that name do. -/
structure Sane (sh : Shell) : Prop where
  bottom : PlainAt sh 0
  kept : ∀ d n v, varAt sh d n = some v → v.readonly = true → v.nodelete = true
  temporary : ∀ d n v, varAt sh d n = some v → TempAt sh d → v.nodelete = false
  getters : ∀ d n v, varAt sh d n = some v → v.getter ≠ .none →
    n = "LINENO".toList ∨ n = "RANDOM".toList
  random : sh.randomActive = true → ∀ d v, varAt sh d "RANDOM".toList = some v → v.getter = .random

end Yash.Variable.Spec

namespace Yash.Variable.Spec

/-- The first occurrences of the elements of a list. -/
def firsts (ws : List Word) : List Word :=
  (ws.zipIdx.filter fun e => decide (e.1 ∉ ws.take e.2)).map (·.1)

/-- `ps` is what the value of a path variable means: the parts between the colons of the value, or
the elements of the array, in both cases without repetitions. -/
def Directories (v : Var) (ps : List Word) : Prop :=
  match v.value with
  | .scalar none => False
  | .scalar (some w) =>
    ∃ parts : List Word, parts ≠ [] ∧ (∀ x ∈ parts, ':' ∉ x) ∧ List.intercalate [':'] parts = w ∧
      ps = firsts parts
  | .array ws => ps = firsts ws

/-- `ps` is the list of directories of the innermost variable named `n` that has a value. -/
def SearchPath (sh : Shell) (n : Name) (ps : List Word) : Prop :=
  ∃ d v, varAt sh d n = some v ∧ Directories v ps ∧
    ∀ e u, d < e → varAt sh e n = some u → u.value = .scalar none

/-- Elements of an array that is named like a path variable are changed in place. -/
def EditsPathArray : Op → Prop
  | .setElement n _ _ => n = "PATH".toList ∨ n = "CDPATH".toList ∨ n = "YASH_LOADPATH".toList
  | .arrayEdit n _ => n = "PATH".toList ∨ n = "CDPATH".toList ∨ n = "YASH_LOADPATH".toList
  | .shift n _ => n = "PATH".toList ∨ n = "CDPATH".toList ∨ n = "YASH_LOADPATH".toList
  | _ => False

/-- For each path variable, the directories the shell searches are those of the variable. -/
def PathsAgree (sh : Shell) : Prop :=
  ∀ n, n = "PATH".toList ∨ n = "CDPATH".toList ∨ n = "YASH_LOADPATH".toList →
    ∀ ps, getPathArray sh.scopes n = some ps ↔ SearchPath sh n ps

end Yash.Variable.Spec
