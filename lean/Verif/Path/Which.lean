import Verif.Variable.Model
/-!
# Model of command search (path.c) and of the order in which commands are searched for (exec.c)

Strings are wide strings; conversion to multibyte strings is the identity.  What `is_executable_regular`
says about a path at the time of the call is a parameter.
-/
set_option autoImplicit false

namespace Yash.Path

open Variable (Name Word Map Shell get put remove getPathArray)

/-- The pathname that `which` makes from a directory and a name (path.c:287-299). -/
def whichPath (dir name : Word) : Word :=
  if dir.isEmpty then name
  else if dir.getLast? = some '/' then dir ++ name
  else dir ++ '/' :: name

/-- The loop of `which` (path.c:285-302). -/
def whichLoop (cond : Word → Bool) (name : Word) : List Word → Option Word
  | [] => none
  | dir :: dirs =>
    if cond (whichPath dir name) then some (whichPath dir name) else whichLoop cond name dirs

/-- `which` (path.c:273-304). -/
def which (name : Word) (dirs : Option (List Word)) (cond : Word → Bool) : Option Word :=
  match name with
  | [] => none
  | '/' :: _ => some name
  | _ =>
    match dirs with
    | none => none
    | some dirs => whichLoop cond name dirs

/-- The second half of `get_command_path` (path.c:399-408).  The result `none` is the failed assertion:
the pathname does not end with the name. -/
def searchDirs (exec : Word → Bool) (sh : Shell) (name : Word) : Option (Shell × Option Word) :=
  match which name (getPathArray sh.scopes "PATH".toList) exec with
  | some path =>
    if path.drop (path.length - name.length) = name then
      some ({ sh with cmdhash := put sh.cmdhash name path }, some path)
    else none
  | none => some ({ sh with cmdhash := remove sh.cmdhash name }, none)

/-- `get_command_path` (path.c:389-409). -/
def getCommandPath (exec : Word → Bool) (sh : Shell) (name : Word) (force : Bool) :
    Option (Shell × Option Word) :=
  if force then searchDirs exec sh name
  else
    match get sh.cmdhash name with
    | some path =>
      if path.head? = some '/' && exec path then some (sh, some path) else searchDirs exec sh name
    | none => searchDirs exec sh name

/-- What happens to the variables and the remembered commands: an operation on variables, a search for
a command, with the files that are executable at that time, and `hash -r` with and without a name
(path.c:1617-1628). -/
inductive Event where
  | change (op : Variable.Op)
  | lookup (name : Word) (force : Bool) (exec : Word → Bool)
  | forget (name : Word)
  | forgetAll

/-- One event, and the result of the search. -/
def runEvent (seed : Word → Bool) (sh : Shell) : Event → Option (Shell × Option Word)
  | .change op => (Variable.step seed sh op).map fun p => (p.1, none)
  | .lookup name force exec => getCommandPath exec sh name force
  | .forget name => some ({ sh with cmdhash := remove sh.cmdhash name }, none)
  | .forgetAll => some ({ sh with cmdhash := [] }, none)

/-! ## The order of the search -/

/-- `enum biflags_T` (builtin.h). -/
inductive BuiltinType where
  | special | mandatory | elective | extension | substitutive
deriving DecidableEq, Repr

/-- `commandinfo_T` without the pointers to the built-in and the function (exec.c:94-113). -/
inductive CommandInfo where
  | none
  | builtin (t : BuiltinType)
  | function
  | external (path : Word)
deriving DecidableEq, Repr

/-- `enum srchcmdtype_T` (exec.c:85-92). -/
structure SearchType where
  external : Bool
  builtin : Bool
  function : Bool
  all : Bool
  stdpath : Bool
  check : Bool

/-- The last part of `search_command`, after built-ins that need no external command
(exec.c:942-974); `bi` is true if there is a substitutive built-in. -/
def searchExternal (exec : Word → Bool) (stdpath : Option (List Word)) (sh : Shell) (name : Word)
    (bi : Bool) (t : SearchType) : Option (Shell × CommandInfo) :=
  if name.contains '/' then
    if t.external && (!t.check || exec name) then some (sh, .external name) else some (sh, .none)
  else if t.external || (bi && t.all) then
    let found :=
      if t.stdpath then some (sh, which name stdpath exec) else getCommandPath exec sh name false
    match found with
    | none => none
    | some (sh, none) => some (sh, .none)
    | some (sh, some path) =>
      if bi then some (sh, .builtin .substitutive) else some (sh, .external path)
  else some (sh, .none)

/-- `search_command` (exec.c:890-975).  `builtins` and `functions` tell what is defined, `stdpath` is the
system's default path. -/
def searchCommand (exec : Word → Bool) (builtins : Word → Option BuiltinType) (functions : Word → Bool)
    (stdpath : Option (List Word)) (posix : Bool) (sh : Shell) (name : Word) (t : SearchType) :
    Option (Shell × CommandInfo) :=
  let slash := name.contains '/'
  let bi := if !slash && t.builtin then builtins name else none
  if bi = some .special then some (sh, .builtin .special)
  else if t.function && (!slash || t.all) && functions name then some (sh, .function)
  else
    match bi with
    | some .mandatory => some (sh, .builtin .mandatory)
    | some .elective => some (sh, .builtin .elective)
    | some .extension =>
      if posix then searchExternal exec stdpath sh name false t else some (sh, .builtin .extension)
    | some .special => none
    | some .substitutive => searchExternal exec stdpath sh name true t
    | none => searchExternal exec stdpath sh name false t

/-- The two searches for a simple command (exec.c:759-791), with no assignments in between.  The result
for a name with a slash that is not an executable file is the external command, whose execution
fails. -/
def resolve (exec : Word → Bool) (builtins : Word → Option BuiltinType) (functions : Word → Bool)
    (posix : Bool) (sh : Shell) (name : Word) : Option (Shell × CommandInfo) :=
  match searchCommand exec builtins functions none posix sh name
      ⟨false, true, true, false, false, false⟩ with
  | none => none
  | some (sh, .none) =>
    match searchCommand exec builtins functions none posix sh name
        ⟨true, true, false, false, false, true⟩ with
    | none => none
    | some (sh, .none) => if name.contains '/' then some (sh, .external name) else some (sh, .none)
    | some r => some r
  | some r => some r

end Yash.Path
