import Verif.Script.Model
import Verif.Parser.Print
import Verif.Expand.Quote
import Verif.Restore.Model
/-!
# Functions (variable.c)

The table of functions, the definition and the removal of functions, and what `typeset -f`, `readonly -f` and `unset -f` do.
The hash table is a finite map (see C01). Writing to the standard output is assumed to succeed. Hashing of the commands in the body (`hashondef`) is left out.
-/
set_option autoImplicit false

namespace Yash.Function

open Yash.Syntax
open Yash.Variable (Name Map get put remove)
open Yash.Expand (Locale Env quoteAsWord)
open Yash.Parser (commandToWcs)
open Yash.Restore (Builtin Flags isName)

/-- `struct function_T` with the two flags of `f_type` that are used (variable.c:1232-1235). -/
structure Func where
  body : Command
  readonly : Bool
  nodelete : Bool

abbrev Functions := Map Func

/-- `define_function` (variable.c:1256-1272). `none` is a refusal. -/
def defineFunction (name : Name) (body : Command) (fs : Functions) : Option Functions :=
  match get fs name with
  | some f => if f.readonly then none else some (put fs name ⟨body, false, false⟩)
  | none => some (put fs name ⟨body, false, false⟩)

/-- `get_function` (variable.c:1276-1283). -/
def getFunction (name : Name) (fs : Functions) : Option Command :=
  match get fs name with
  | some f => some f.body
  | none => none

/-- `unset_function` (variable.c:2342-2356). The second component is true for an error. -/
def unsetFunction (name : Name) (fs : Functions) : Functions × Bool :=
  match get fs name with
  | some f =>
    if !f.nodelete then (remove fs name, false)
    else (put (remove fs name) name f, true)
  | none => (remove fs name, false)

/-- What does not change: the locale, whether the shell conforms to POSIX, and `qsort` with `keywcscoll`. -/
structure Config where
  locale : Locale
  posix : Bool
  isDigit : Char → Bool
  sort : List (Name × Func) → List (Name × Func)

/-- `print_function` (variable.c:1932-1966); the assertion that the built-in is `readonly` or `typeset` is `none`. -/
def printFunction (L : Locale) (name : Name) (f : Func) (b : Builtin) (readonly : Bool) : Option (List Char) :=
  if readonly && !f.readonly then some []
  else
    let quoted := !isName L name
    let name := if quoted then quoteAsWord L name else name
    let text := (if quoted then "function ".toList else []) ++ name ++ "()\n".toList ++ commandToWcs L f.body true
    match b with
    | .readonly => some (text ++ if f.readonly then b.name ++ " -f ".toList ++ name ++ ['\n'] else [])
    | .typeset => some (text ++ if f.readonly then b.name ++ " -fr ".toList ++ name ++ ['\n'] else [])
    | _ => none

/-- A hash table with each key once, as an array (`ht_tokvarray`). -/
def entries (fs : Functions) : List (Name × Func) := fs.foldr (fun e t => put t e.1 e.2) []

/-- The loop that prints all functions (variable.c:1729-1730). -/
def printAll (L : Locale) (b : Builtin) (readonly : Bool) : List (Name × Func) → Option (List Char)
  | [] => some []
  | (n, f) :: es => do
    let out ← printFunction L n f b readonly
    let rest ← printAll L b readonly es
    some (out ++ rest)

/-- The loop over the operands (variable.c:1735-1791), for functions. The result is the table, what is printed and whether there was no error. -/
def typesetLoop (L : Locale) (b : Builtin) (print readonly : Bool) : List Name → Functions → Option (Functions × List Char × Bool)
  | [], fs => some (fs, [], true)
  | arg :: args, fs =>
    match get fs arg with
    | some f =>
      if print then
        if !readonly || f.readonly then do
          let out ← printFunction L arg f b readonly
          let (fs', out', ok) ← typesetLoop L b print readonly args fs
          some (fs', out ++ out', ok)
        else typesetLoop L b print readonly args fs
      else if readonly then typesetLoop L b print readonly args (put fs arg { f with readonly := true, nodelete := true })
      else typesetLoop L b print readonly args fs
    | none => do
      let (fs', out', _) ← typesetLoop L b print readonly args fs
      some (fs', out', false)

/-- `typeset_builtin` after the options (variable.c:1702-1795). Operations on variables are `none` here (they are modelled in `Verif.Restore`). -/
def typesetMain (C : Config) (b : Builtin) (f : Flags) (operands : List Name) (fs : Functions) : Option (Functions × List Char × Bool) :=
  if f.function && f.global && b = .typeset then some (fs, [], false)
  else if f.function && f.ex then some (fs, [], false)
  else if f.function && f.unex then some (fs, [], false)
  else if f.ex && f.unex then some (fs, [], false)
  else if !f.function then none
  else if operands.isEmpty then (printAll C.locale b f.ro (C.sort (entries fs))).map fun out => (fs, out, true)
  else typesetLoop C.locale b f.print f.ro operands fs

/-- How the options of a built-in are read; there are no flags (variable.c:1660, 2308). -/
def Config.getopt (C : Config) (opts : List Xgetopt.Opt) : Xgetopt.Config :=
  { opts := opts, posixlyCorrect := C.posix, flagPosix := false, flagDigit := false, isDigit := C.isDigit }

/-- `typeset_builtin` (variable.c:1651-1795). The help is not modelled. -/
def typesetBuiltin (C : Config) (b : Builtin) (args : List (List Char)) (fs : Functions) : Option (Functions × List Char × Bool) :=
  let r := Xgetopt.Spec.parse (C.getopt b.options) none args
  let f := Flags.ofReports r.reports
  if f.help then none
  else
    match r.final with
    | .error _ => some (fs, [], false)
    | .done => typesetMain C b (f.implied b) r.operands fs

/-- `unset_options` (variable.c:2290-2297). -/
def unsetOptions : List Xgetopt.Opt :=
  [⟨'f', some "functions".toList, .none, true⟩, ⟨'v', some "variables".toList, .none, true⟩, ⟨'-', some "help".toList, .none, false⟩]

/-- The loop over the operands of `unset -f` (variable.c:2325-2334). The second component is whether there was no error. -/
def unsetLoop : List Name → Functions → Functions × Bool
  | [], fs => (fs, true)
  | n :: ns, fs =>
    let (fs, err) := unsetFunction n fs
    let (fs, ok) := unsetLoop ns fs
    (fs, !err && ok)

/-- The last of `-f` and `-v` counts (variable.c:2304-2320). -/
def unsetsFunctions (rs : List Xgetopt.Report) : Bool :=
  rs.foldl (fun b r => if r.1.short == 'f' then true else if r.1.short == 'v' then false else b) false

/-- `unset_builtin` (variable.c:2301-2337). The help is not modelled, and neither is the removal of variables. -/
def unsetBuiltin (C : Config) (args : List (List Char)) (fs : Functions) : Option (Functions × List Char × Bool) :=
  let r := Xgetopt.Spec.parse (C.getopt unsetOptions) none args
  if r.reports.any fun o => o.1.short == '-' then none
  else
    match r.final with
    | .error _ => some (fs, [], false)
    | .done =>
      if C.posix && r.operands.isEmpty then some (fs, [], false)
      else if unsetsFunctions r.reports then
        let (fs, ok) := unsetLoop r.operands fs
        some (fs, [], ok)
      else none

/-- A built-in called with the fields of a simple command. `none`: not modelled, or a failed assertion. -/
def runBuiltin (C : Config) : List (List Char) → Functions → Option (Functions × List Char × Bool)
  | name :: args, fs =>
    if name = "unset".toList then unsetBuiltin C args fs
    else if name = "typeset".toList then typesetBuiltin C .typeset args fs
    else if name = "readonly".toList then typesetBuiltin C .readonly args fs
    else if name = "export".toList then typesetBuiltin C .export args fs
    else if name = "local".toList then typesetBuiltin C .local args fs
    else none
  | [], _ => none

/-- The shell that executes a listing: what expansions depend on is arbitrary; a command that reports an error ends the execution. -/
def shell (C : Config) (env : Functions → Env Functions) : Script.Shell Functions where
  locale := C.locale
  env := env
  active := fun _ => true
  exec fields fs :=
    match runBuiltin C fields fs with
    | some (fs, _, true) => some fs
    | _ => none
  define := defineFunction

end Yash.Function
