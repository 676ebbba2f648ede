import Verif.Variable.Map
/-!
# Model of variables and their scopes (variable.c)

* A `variable_T` that is found in a scope is replaced by a changed one in the model, where the C code
  changes the structure in place.
* `xerror` is the result `false` of an operation.
* Conversion to multibyte strings never fails.  `setenv` and `unsetenv` fail exactly for names that
  are empty or contain `=`.
* Of the callback `variable_set`, the locale and the line editor are left out.
-/
set_option autoImplicit false

namespace Yash.Variable

/-- The value of a `variable_T` (variable.c:104-119). -/
inductive Value where
  | scalar (v : Option Word)
  | array (vs : List Word)
deriving DecidableEq, Repr

/-- `v_getter` (variable.c:113, 1042-1072). -/
inductive Getter where
  | none | lineno | random
deriving DecidableEq, Repr

/-- `variable_T` (variable.c:90-114). -/
structure Var where
  value : Value
  exported : Bool
  readonly : Bool
  nodelete : Bool
  getter : Getter
deriving DecidableEq, Repr

/-- `environ_T` (variable.c:69-74).  `paths` is indexed by the name of the path variable. -/
structure Scope where
  vars : Map Var
  temp : Bool
  paths : Map (List Word)
deriving Repr

/-- The state: `current_env` and its parents, innermost first, the process environment, the option
`allexport`, whether `$RANDOM` is active, and the command hashtable `cmdhash` (path.c:361-370). -/
structure Shell where
  scopes : List Scope
  environ : Map Word
  allexport : Bool
  randomActive : Bool
  cmdhash : Map Word

/-- `joinwcsarray(vals, L":")` -/
def joinColon : List Word → Word
  | [] => []
  | [w] => w
  | w :: ws => w ++ ':' :: joinColon ws

/-- The value an exported variable gives to the process environment (variable.c:441-450). -/
def Var.exportValue (v : Var) : Option Word :=
  match v.value with
  | .scalar none => none
  | .scalar (some w) => some w
  | .array vs => some (joinColon vs)

/-- `get_exported_value` (variable.c:436-456). -/
def exportedValue : List Scope → Name → Option Word
  | [], _ => none
  | s :: ss, n =>
    match get s.vars n with
    | some v =>
      if v.exported then
        match v.exportValue with
        | some w => some w
        | none => exportedValue ss n
      else exportedValue ss n
    | none => exportedValue ss n

/-- Names that `setenv` and `unsetenv` accept. -/
def settable (n : Name) : Bool := !n.isEmpty && !n.contains '='

/-- `update_environment` (variable.c:413-431). -/
def updateEnviron (scopes : List Scope) (env : Map Word) (n : Name) : Map Word :=
  if settable n then
    match exportedValue scopes n with
    | none => remove env n
    | some w => put env n w
  else env

/-- `path_variables` (variable.c:60-64). -/
def isPathVar (n : Name) : Bool :=
  n == "PATH".toList || n == "CDPATH".toList || n == "YASH_LOADPATH".toList

/-- The strings between the colons (the loop of `decompose_paths`, variable.c:1148-1153). -/
def splitColon : Word → List Word
  | [] => [[]]
  | c :: w =>
    if c = ':' then [] :: splitColon w
    else
      match splitColon w with
      | [] => [[c]]
      | x :: xs => (c :: x) :: xs

/-- `add_to_list_no_dup` for each element (variable.c:1179-1190). -/
def addNoDup : List Word → List Word → List Word
  | acc, [] => acc
  | acc, w :: ws => addNoDup (if acc.contains w then acc else acc ++ [w]) ws

/-- The path array of a variable: `decompose_paths` and `convert_path_array`
(variable.c:1140-1175). -/
def pathArray (v : Var) : Option (List Word) :=
  match v.value with
  | .scalar none => none
  | .scalar (some w) => some (addNoDup [] (splitColon w))
  | .array vs => some (addNoDup [] vs)

/-- One iteration of `reset_path` (variable.c:1196-1212). -/
def resetPath (n : Name) (s : Scope) : Scope :=
  if isPathVar n then
    match (get s.vars n).bind pathArray with
    | some p => { s with paths := put s.paths n p }
    | none => { s with paths := remove s.paths n }
  else s

/-- `get_path_array` (variable.c:1220-1227). -/
def getPathArray : List Scope → Name → Option (List Word)
  | [], _ => none
  | s :: ss, n =>
    match get s.paths n with
    | some p => some p
    | none => getPathArray ss n

/-- `clear_cmdhash` when `PATH` is set or unset (variable.c:1100-1101). -/
def clearCmdhash (n : Name) (m : Map Word) : Map Word := if n == "PATH".toList then [] else m

/-- `variable_set(name, NULL)` (variable.c:1080-1130): all the scopes get their path array anew, and
`$RANDOM` is no longer active. -/
def unsetHook (sh : Shell) (n : Name) : Shell :=
  { sh with
    scopes := sh.scopes.map (resetPath n)
    randomActive := sh.randomActive && n != "RANDOM".toList
    cmdhash := clearCmdhash n sh.cmdhash }

/-- `varkvfree_reexport` after the variable `v` has been removed (variable.c:230-241). -/
def reexport (sh : Shell) (n : Name) (v : Var) : Shell :=
  let sh := unsetHook sh n
  if v.exported then { sh with environ := updateEnviron sh.scopes sh.environ n } else sh

/-- A variable found or created by the functions below: the state, the index of the scope that holds
the variable (or will hold it), and the variable. -/
structure Found where
  sh : Shell
  idx : Nat
  var : Var

/-- A scalar without value (variable.c:530-533). -/
def Var.fresh : Var := ⟨.scalar none, false, false, false, .none⟩

/-- `varkvfree_reexport(ht_remove(&env->contents, name))` for the scope at index `i`. -/
def dropVar (sh : Shell) (i : Nat) (n : Name) (v : Var) : Shell :=
  reexport { sh with scopes := sh.scopes.modify i fun s => { s with vars := remove s.vars n } } n v

/-- The loop of `new_global` and what follows it (variable.c:519-535).  `i` is the index of `env`,
`k` the number of scopes that are left. -/
def newGlobalLoop (n : Name) : Nat → Nat → Shell → Option Found
  | 0, _, sh => some ⟨sh, sh.scopes.length - 1, .fresh⟩
  | k + 1, i, sh =>
    match sh.scopes[i]? with
    | none => none
    | some s =>
      match get s.vars n with
      | none => newGlobalLoop n k (i + 1) sh
      | some v =>
        if s.temp then
          if v.nodelete then none else newGlobalLoop n k (i + 1) (dropVar sh i n v)
        else some ⟨sh, i, v⟩

/-- `new_global` (variable.c:516-536). -/
def newGlobal (sh : Shell) (n : Name) : Option Found := newGlobalLoop n sh.scopes.length 0 sh

/-- The loop of `new_local` and what follows it (variable.c:544-561); the outermost scope is never
passed because it is not temporary. -/
def newLocalLoop (n : Name) : Nat → Nat → Shell → Option Found
  | 0, _, _ => none
  | k + 1, i, sh =>
    match sh.scopes[i]? with
    | none => none
    | some s =>
      if s.temp then
        match get s.vars n with
        | none => newLocalLoop n k (i + 1) sh
        | some v => newLocalLoop n k (i + 1) (dropVar sh i n v)
      else
        match get s.vars n with
        | some v => some ⟨sh, i, v⟩
        | none => some ⟨sh, i, .fresh⟩

/-- `new_local` (variable.c:542-562). -/
def newLocal (sh : Shell) (n : Name) : Option Found := newLocalLoop n sh.scopes.length 0 sh

/-- `search_variable` (variable.c:386-394), with the index of the scope that holds the variable. -/
def locate : List Scope → Name → Option (Nat × Var)
  | [], _ => none
  | s :: ss, n =>
    match get s.vars n with
    | some v => some (0, v)
    | none => (locate ss n).map fun p => (p.1 + 1, p.2)

/-- The variable of the innermost scope, or a new one (variable.c:578-589). -/
def topVariable (sh : Shell) (s : Scope) (n : Name) : Found :=
  match get s.vars n with
  | some v => ⟨sh, 0, v⟩
  | none => ⟨sh, 0, .fresh⟩

/-- `new_temporary` (variable.c:566-590). -/
def newTemporary (sh : Shell) (n : Name) : Option Found :=
  match sh.scopes with
  | [] => none
  | s :: _ =>
    if s.temp then
      match locate sh.scopes n with
      | some (i, v) => if v.readonly then some ⟨sh, i, v⟩ else some (topVariable sh s n)
      | none => some (topVariable sh s n)
    else none

/-- `scope_T` (variable.h:94-96). -/
inductive ScopeKind where
  | global | local | temp
deriving DecidableEq, Repr

/-- The first half of `new_variable` (variable.c:600-605). -/
def newVariable (sh : Shell) (n : Name) : ScopeKind → Option Found
  | .global => newGlobal sh n
  | .local => newLocal sh n
  | .temp => newTemporary sh n

/-- `reset_path` for a variable in the scope at index `i`: the loop ends there
(variable.c:1194-1215). -/
def resetUpTo (n : Name) : Nat → List Scope → List Scope
  | _, [] => []
  | 0, s :: ss => resetPath n s :: ss
  | i + 1, s :: ss => resetPath n s :: resetUpTo n i ss

/-- Puts a changed variable into the scope at index `i`. -/
def putVar (sh : Shell) (i : Nat) (n : Name) (v : Var) : Shell :=
  { sh with scopes := sh.scopes.modify i fun s => { s with vars := put s.vars n v } }

/-- Whether an assigned value makes `$RANDOM` active again; `seed` tells whether a word is an
unsigned number (variable.c:1109-1118). -/
def reseeds (seed : Word → Bool) (v : Var) : Bool :=
  match v.value with
  | .scalar (some w) => seed w
  | _ => false

/-- `variable_set(name, var)` for the variable of the scope at index `i`
(variable.c:1080-1130). -/
def store (seed : Word → Bool) (sh : Shell) (i : Nat) (n : Name) (v : Var) : Shell :=
  let sh' :=
    if sh.randomActive && n == "RANDOM".toList then
      if reseeds seed v then putVar sh i n { v with getter := .random }
      else { putVar sh i n v with randomActive := false }
    else putVar sh i n v
  { sh' with scopes := resetUpTo n i sh'.scopes, cmdhash := clearCmdhash n sh'.cmdhash }

/-- Calls `update_environment` if the flag is true. -/
def reexportIf (b : Bool) (sh : Shell) (n : Name) : Shell :=
  if b then { sh with environ := updateEnviron sh.scopes sh.environ n } else sh

/-- `set_variable` and `set_array` (variable.c:624-656, 661-688): the two differ only in the value.
In the read-only case the temporary variables removed by `new_global` stay removed. -/
def setVariable (seed : Word → Bool) (sh : Shell) (n : Name) (val : Value) (k : ScopeKind)
    (exp : Bool) : Option (Shell × Bool) :=
  match newVariable sh n k with
  | none => none
  | some f =>
    if f.var.readonly then some (f.sh, false)
    else
      let e := f.var.exported || exp || (sh.allexport && n.head? != some '=')
      some (reexportIf e (store seed f.sh f.idx n ⟨val, e, false, f.var.nodelete, .none⟩) n, true)

/-- `set_array_element` (variable.c:693-716). -/
def setArrayElement (sh : Shell) (n : Name) (j : Nat) (w : Word) : Shell × Bool :=
  match locate sh.scopes n with
  | none => (sh, false)
  | some (i, v) =>
    match v.value with
    | .scalar _ => (sh, false)
    | .array vs =>
      if v.readonly then (sh, false)
      else if vs.length ≤ j then (sh, false)
      else (reexportIf v.exported (putVar sh i n { v with value := .array (vs.set j w) }) n, true)

/-- What the options of `typeset` and its variants ask for (variable.c:1651-1693). -/
structure TypesetFlags where
  global : Bool
  readonly : Bool
  exp : Bool
  unexp : Bool

/-- The variable after `typeset` (variable.c:1739-1755). -/
def typesetVar (v : Var) (val : Option Word) (t : TypesetFlags) : Var where
  value :=
    match val with
    | some w => if v.readonly then v.value else .scalar (some w)
    | none => v.value
  exported := if t.exp then true else if t.unexp then false else v.exported
  readonly := v.readonly || t.readonly
  nodelete := v.nodelete || t.readonly
  getter := if val.isSome && !v.readonly then .none else v.getter

/-- `typeset` with an operand `name` or `name=value` (variable.c:1735-1763). -/
def typeset (seed : Word → Bool) (sh : Shell) (n : Name) (val : Option Word) (t : TypesetFlags) :
    Option (Shell × Bool) :=
  match (if t.global then newGlobal sh n else newLocal sh n) with
  | none => none
  | some f =>
    let v := typesetVar f.var val t
    some (reexportIf (f.var.exported != v.exported || (val.isSome && v.exported))
      (store seed f.sh f.idx n v) n, !(val.isSome && f.var.readonly))

/-- `unset_variable` (variable.c:2361-2383); the result `true` means success here. -/
def unsetVariable (sh : Shell) (n : Name) : Shell × Bool :=
  match locate sh.scopes n with
  | none => (sh, true)
  | some (i, v) => if v.nodelete then (sh, false) else (dropVar sh i n v, true)

/-- `search_array_and_check_if_changeable` (variable.c:398-409) and then `array -d`, `-i` or `-s`
(variable.c:2079-2099), where `edit` is what the option does to the elements.  Neither the process
environment nor the path arrays are updated. -/
def arrayEdit (sh : Shell) (n : Name) (edit : List Word → Option (List Word)) : Shell × Bool :=
  match locate sh.scopes n with
  | none => (sh, false)
  | some (i, v) =>
    match v.value with
    | .scalar _ => (sh, false)
    | .array vs =>
      if v.readonly then (sh, false)
      else
        match edit vs with
        | none => (sh, false)
        | some vs' => (putVar sh i n { v with value := .array vs' }, true)

/-- `shift`, and `shift -A name` (variable.c:2447-2496): whether the array is read-only is not
checked. -/
def shiftArray (sh : Shell) (n : Name) (edit : List Word → Option (List Word)) : Shell × Bool :=
  match locate sh.scopes n with
  | none => (sh, false)
  | some (i, v) =>
    match v.value with
    | .scalar _ => (sh, false)
    | .array vs =>
      match edit vs with
      | none => (sh, false)
      | some vs' => (putVar sh i n { v with value := .array vs' }, true)

/-- `open_new_environment` (variable.c:991-1001). -/
def openScope (sh : Shell) (temp : Bool) : Shell :=
  { sh with scopes := ⟨[], temp, []⟩ :: sh.scopes }

/-- `ht_clear(&oldenv->contents, varkvfree_reexport)` (variable.c:1011). -/
def reexportAll : Map Var → Shell → Shell
  | [], sh => sh
  | e :: m, sh => reexportAll m (reexport sh e.1 e.2)

/-- `close_current_environment` (variable.c:1005-1017). -/
def closeScope (sh : Shell) : Option Shell :=
  match sh.scopes with
  | [] => none
  | s :: ss => if ss.isEmpty then none else some (reexportAll s.vars { sh with scopes := ss })

/-- Reading a variable that has a getter (`getvar`, variable.c:809-820, `update_lineno` and the
getters, variable.c:1021-1058); `w` is the text the getter produces. -/
def readVariable (sh : Shell) (n : Name) (w : Word) : Shell :=
  match locate sh.scopes n with
  | none => sh
  | some (i, v) =>
    match v.value with
    | .array _ => sh
    | .scalar _ =>
      if v.getter = .none then sh
      else reexportIf v.exported (putVar sh i n { v with value := .scalar (some w) }) n

/-- The operations on variables that the rest of the shell uses. -/
inductive Op where
  | assign (n : Name) (val : Value) (k : ScopeKind) (exp : Bool)
  | setElement (n : Name) (j : Nat) (w : Word)
  | typeset (n : Name) (val : Option Word) (t : TypesetFlags)
  | unset (n : Name)
  | arrayEdit (n : Name) (edit : List Word → Option (List Word))
  | shift (n : Name) (edit : List Word → Option (List Word))
  | enter (temp : Bool)
  | leave
  | read (n : Name) (w : Word)
  | allexport (b : Bool)

/-- One operation: the new state and whether it succeeded; `none` is a failed assertion. -/
def step (seed : Word → Bool) (sh : Shell) : Op → Option (Shell × Bool)
  | .assign n val k exp => setVariable seed sh n val k exp
  | .setElement n j w => some (setArrayElement sh n j w)
  | .typeset n val t => Yash.Variable.typeset seed sh n val t
  | .unset n => some (unsetVariable sh n)
  | .arrayEdit n edit => some (Yash.Variable.arrayEdit sh n edit)
  | .shift n edit => some (shiftArray sh n edit)
  | .enter temp => some (openScope sh temp, true)
  | .leave => (closeScope sh).map fun sh => (sh, true)
  | .read n w => some (readVariable sh n w, true)
  | .allexport b => some ({ sh with allexport := b }, true)

/-- `init_environment` (variable.c:246-278): every environment variable becomes an exported scalar.
Environment strings without `=` are left out. -/
def initEnvironment (env : Map Word) : Shell :=
  let vars : Map Var := env.foldl (fun m e => put m e.1 ⟨.scalar (some e.2), true, false, false, .none⟩) []
  let s : Scope := ⟨vars, false, []⟩
  { scopes := [resetPath "PATH".toList (resetPath "CDPATH".toList (resetPath "YASH_LOADPATH".toList s))]
    environ := env
    allexport := false
    randomActive := false
    cmdhash := [] }

/-- `init_variables` for `LINENO` (variable.c:288-298). -/
def initLineno (sh : Shell) : Option Shell :=
  match newGlobal sh "LINENO".toList with
  | none => none
  | some f =>
    if f.var.readonly then none
    else some (putVar f.sh f.idx "LINENO".toList ⟨.scalar none, f.var.exported, false, false, .lineno⟩)

/-- `init_variables` for `RANDOM` (variable.c:330-341), outside the POSIXly-correct mode. -/
def initRandom (sh : Shell) : Option Shell :=
  match newGlobal sh "RANDOM".toList with
  | none => none
  | some f =>
    if f.var.readonly then none
    else some { putVar f.sh f.idx "RANDOM".toList ⟨.scalar none, false, false, false, .random⟩ with
      randomActive := true }

end Yash.Variable
