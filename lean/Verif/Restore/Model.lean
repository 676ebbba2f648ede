import Verif.Variable.Model
import Verif.Xgetopt.Spec
import Verif.Expand.Four
import Verif.Parser.Model
/-!
# Model of the printing of variables (`typeset -p` and its variants, variable.c) and of the execution
of what is printed

* The option phase of the built-in is `Yash.Xgetopt.Spec.parse`, which theorem `C04_option_parsing`
  shows to be what the loop over `xgetopt` reports.
* What the built-in prints is a `List Char`.  Printing never fails.
* `qsort` with `keywcscoll` is the parameter `sort`.
* The execution covers assignments without a command and the built-ins `typeset`, `local`, `export`,
  `readonly`, `array` and `set` (the last two without operands only); it is assumed that there are
  no functions or aliases of these names.  Redirections, tracing, exit statuses and changes of the
  locale caused by assignments are not modelled.
-/
set_option autoImplicit false

namespace Yash.Restore

open Yash.Syntax
open Yash.Expand (Locale Env expandSingle expandLine quoteAsWord Tilde Quoting Escaping)
open Yash.Variable (Name Map Var Scope Shell Value TypesetFlags setVariable put)

/-- The built-ins that print variables; the C code tells them apart by the first character of
`ARGV(0)` (variable.c:1677-1700). -/
inductive Builtin where
  | typeset | «local» | «export» | «readonly» | array | set
deriving DecidableEq, Repr

/-- `ARGV(0)` -/
def Builtin.name : Builtin → List Char
  | .typeset => "typeset".toList
  | .local => "local".toList
  | .export => "export".toList
  | .readonly => "readonly".toList
  | .array => "array".toList
  | .set => "set".toList

/-- `is_name` (parser.c:385-388). -/
def isName (L : Locale) (n : List Char) : Bool := isNameBy (isNameChar L) n

/-- `vartype_option_string` (variable.c:1971-1982). -/
def optionString (v : Var) : List Char :=
  let opts := (if v.exported then ['x'] else []) ++ (if v.readonly then ['r'] else [])
  if opts.isEmpty then [] else ' ' :: '-' :: opts

/-- `name` or `name=value` -/
def printOperand (name : List Char) (quoted : Option (List Char)) : List Char :=
  match quoted with
  | some q => name ++ '=' :: q
  | none => name

/-- `print_scalar` (variable.c:1836-1875).  `name` is already quoted if need be.  The built-in
`array` never prints a scalar (the C code asserts this). -/
def printScalar (L : Locale) (b : Builtin) (name : List Char) (namequote : Bool) (v : Var) (value : Option (List Char)) :
    List Char :=
  let quoted := value.map (quoteAsWord L)
  match b with
  | .set =>
    match quoted with
    | some q => if namequote then [] else name ++ '=' :: (q ++ ['\n'])
    | none => []
  | .export => b.name ++ ' ' :: (printOperand name quoted ++ ['\n'])
  | .readonly => b.name ++ ' ' :: (printOperand name quoted ++ ['\n'])
  | .local => b.name ++ optionString v ++ ' ' :: (printOperand name quoted ++ ['\n'])
  | .typeset => b.name ++ optionString v ++ ' ' :: (printOperand name quoted ++ ['\n'])
  | .array => []

/-- The elements of an array, separated by spaces (variable.c:1884-1897). -/
def printElements (L : Locale) : List (List Char) → List Char
  | [] => []
  | [v] => quoteAsWord L v
  | v :: vs => quoteAsWord L v ++ ' ' :: printElements L vs

/-- `print_array` (variable.c:1879-1923). -/
def printArray (L : Locale) (b : Builtin) (name : List Char) (v : Var) (values : List (List Char)) : List Char :=
  name ++ "=(".toList ++ printElements L values ++ ")\n".toList ++
    match b with
    | .array => []
    | .set => []
    | .export => b.name ++ ' ' :: (name ++ ['\n'])
    | .readonly => b.name ++ ' ' :: (name ++ ['\n'])
    | .local => b.name ++ optionString v ++ ' ' :: (name ++ ['\n'])
    | .typeset => b.name ++ optionString v ++ ' ' :: (name ++ ['\n'])

/-- `print_variable` (variable.c:1803-1829). -/
def printVariable (L : Locale) (b : Builtin) (ro ex : Bool) (name : Name) (v : Var) : List Char :=
  if name.head? = some '=' then []
  else if ro && !v.readonly then []
  else if ex && !v.exported then []
  else
    let namequote := !isName L name
    let qname := if namequote then quoteAsWord L name else name
    match v.value with
    | .scalar value => printScalar L b qname namequote v value
    | .array values => printArray L b qname v values

/-- A hash table with each key once, as an array (`ht_tokvarray`). -/
def entries (m : Map Var) : List (Name × Var) := m.foldr (fun e t => put t e.1 e.2) []

/-- `get_all_variables_rec` (variable.c:975-986). -/
def allVariablesRec (global : Bool) : List Scope → Map Var
  | [] => []
  | s :: ss =>
    s.vars.foldr (fun e t => put t e.1 e.2)
      (if !ss.isEmpty && (global || s.temp) then allVariablesRec global ss else [])

/-- `make_array_of_all_variables` (variable.c:951-967). -/
def allVariables (global : Bool) : List Scope → List (Name × Var)
  | [] => []
  | s :: ss => if ss.isEmpty || (!global && s.temp) then entries s.vars else allVariablesRec global (s :: ss)

/-- The loop over all variables (variable.c:1719-1724). -/
def printAll (L : Locale) (sort : List (Name × Var) → List (Name × Var)) (b : Builtin) (global ro ex : Bool) (sh : Shell) : List Char :=
  (sort (allVariables global sh.scopes)).flatMap fun e => printVariable L b ro ex e.1 e.2

/-- `array_dump_all` (variable.c:2113-2125). -/
def arrayDump (L : Locale) (sort : List (Name × Var) → List (Name × Var)) (sh : Shell) : List Char :=
  (sort (allVariables true sh.scopes)).flatMap fun e =>
    match e.2.value with
    | .scalar _ => []
    | .array _ => printVariable L .array false false e.1 e.2

/-! ## The built-in -/

/-- `typeset_options` (variable.c:1625-1636). -/
def typesetOptions : List Xgetopt.Opt :=
  [⟨'f', some "functions".toList, .none, false⟩, ⟨'g', some "global".toList, .none, false⟩,
    ⟨'p', some "print".toList, .none, true⟩, ⟨'r', some "readonly".toList, .none, false⟩,
    ⟨'x', some "export".toList, .none, false⟩, ⟨'X', some "unexport".toList, .none, false⟩,
    ⟨'-', some "help".toList, .none, false⟩]

/-- The table that a built-in uses (variable.c:1656-1657; variable.h:154). -/
def Builtin.options : Builtin → List Xgetopt.Opt
  | .local => typesetOptions.drop 2
  | _ => typesetOptions

/-- What the caller of the built-in is given: the parts of the state of the shell that do not change. -/
structure Config where
  posix : Bool
  isDigit : Char → Bool
  /-- Whether a word is an unsigned number. -/
  seed : List Char → Bool
  sort : List (Name × Var) → List (Name × Var)
  env : Env Shell

def Config.locale (C : Config) : Locale := C.env.locale

def Config.getopt (C : Config) (b : Builtin) : Xgetopt.Config :=
  { opts := b.options, posixlyCorrect := C.posix, flagPosix := false, flagDigit := false, isDigit := C.isDigit }

/-- The options that have been given (variable.c:1653-1675). -/
structure Flags where
  function : Bool
  global : Bool
  print : Bool
  ro : Bool
  ex : Bool
  unex : Bool
  help : Bool

def Flags.ofReports (rs : List Xgetopt.Report) : Flags :=
  let given := fun c : Char => rs.any fun r => r.1.short == c
  ⟨given 'f', given 'g', given 'p', given 'r', given 'x', given 'X', given '-'⟩

/-- What the name of the built-in implies (variable.c:1677-1700). -/
def Flags.implied (f : Flags) : Builtin → Flags
  | .export => { f with global := true, ex := f.ex || !f.unex }
  | .readonly => { f with global := true, ro := true }
  | .set => { f with global := true }
  | _ => f

/-- One operand that is not printed: `name` or `name=value` (variable.c:1737-1765). -/
def typesetOperand (C : Config) (f : Flags) (arg : List Char) (sh : Shell) : Option (Shell × Bool) :=
  let name := arg.takeWhile (· != '=')
  let t : TypesetFlags := ⟨f.global, f.ro, f.ex, f.unex⟩
  match arg.dropWhile (· != '=') with
  | [] => Variable.typeset C.seed sh name none t
  | _ :: value => Variable.typeset C.seed sh name (some value) t

/-- `search_variable` -/
def searchVariable (sh : Shell) (n : Name) : Option Var := (Variable.locate sh.scopes n).map (·.2)

/-- The loop over the operands (variable.c:1736-1790).  The result is the state, what is printed and
whether there was no error; `none` is a failed assertion. -/
def typesetLoop (C : Config) (b : Builtin) (f : Flags) : List (List Char) → Shell → Option (Shell × List Char × Bool)
  | [], sh => some (sh, [], true)
  | arg :: args, sh =>
    if arg.contains '=' || !f.print then do
      let (sh, ok) ← typesetOperand C f arg sh
      let (sh, out, ok') ← typesetLoop C b f args sh
      some (sh, out, ok && ok')
    else do
      let (sh', out', ok') ← typesetLoop C b f args sh
      match searchVariable sh arg with
      | some v => some (sh', printVariable C.locale b f.ro f.ex arg v ++ out', ok')
      | none => some (sh', out', false)

/-- `typeset_builtin` after the options (variable.c:1702-1795).  Of the operations on functions only
the errors are modelled. -/
def typesetMain (C : Config) (b : Builtin) (f : Flags) (operands : List (List Char)) (sh : Shell) : Option (Shell × List Char × Bool) :=
  if f.function && f.global && b = .typeset then some (sh, [], false)
  else if f.function && f.ex then some (sh, [], false)
  else if f.function && f.unex then some (sh, [], false)
  else if f.ex && f.unex then some (sh, [], false)
  else if f.function then none
  else if operands.isEmpty then some (sh, printAll C.locale C.sort b f.global f.ro f.ex sh, true)
  else typesetLoop C b f operands sh

/-- `typeset_builtin` (variable.c:1651-1795).  The help is not modelled. -/
def typesetBuiltin (C : Config) (b : Builtin) (args : List (List Char)) (sh : Shell) : Option (Shell × List Char × Bool) :=
  let r := Xgetopt.Spec.parse (C.getopt b) none args
  let f := Flags.ofReports r.reports
  if f.help then none
  else
    match r.final with
    | .error _ => some (sh, [], false)
    | .done => typesetMain C b (f.implied b) r.operands sh

/-- `array_builtin` and `set_builtin` without operands (variable.c:2069-2070; option.c:913-914), and the other built-ins. -/
def runBuiltin (C : Config) (b : Builtin) (args : List (List Char)) (sh : Shell) : Option (Shell × List Char × Bool) :=
  match b with
  | .array => if args.isEmpty then some (sh, arrayDump C.locale C.sort sh, true) else none
  | .set => if args.isEmpty then typesetBuiltin C b [] sh else none
  | _ => typesetBuiltin C b args sh

/-! ## Execution of scripts -/

/-- The built-in with a name. -/
def builtinNamed (n : List Char) : Option Builtin :=
  [Builtin.typeset, .local, .export, .readonly, .array, .set].find? fun b => b.name == n

/-- `do_assignments(assign, false, false)` (variable.c:739-774).  `none` is an error. -/
def doAssignments (C : Config) : List Assign → Shell → Option Shell
  | [], sh => some sh
  | .scalar n w :: as, sh =>
    match expandSingle C.env .multi .word .none w sh with
    | .ok sh v =>
      match setVariable C.seed sh n (.scalar (some v)) .global false with
      | some (sh, true) => doAssignments C as sh
      | _ => none
    | _ => none
  | .array n ws :: as, sh =>
    match expandLine C.env ws sh with
    | .ok sh vs =>
      match setVariable C.seed sh n (.array vs) .global false with
      | some (sh, true) => doAssignments C as sh
      | _ => none
    | _ => none

/-- A simple command without redirections (exec.c:663-683, 699-714, 740-815): the new state and what
is printed.  `none` is an error, or something that is not modelled. -/
def execCommand (C : Config) : Command → Shell → Option (Shell × List Char)
  | .simple [] as ws, sh =>
    match expandLine C.env ws sh with
    | .ok sh [] => (doAssignments C as sh).map fun sh => (sh, [])
    | .ok sh (name :: args) =>
      match as, builtinNamed name with
      | [], some b =>
        match runBuiltin C b args sh with
        | some (sh, out, true) => some (sh, out)
        | _ => none
      | _, _ => none
    | _ => none
  | _, _ => none

/-- And-or lists that consist of a single command each (`exec_and_or_lists`, exec.c:308-). -/
def execList (C : Config) : List AndOr → Shell → Option (Shell × List Char)
  | [], sh => some (sh, [])
  | .mk [.mk [c] false false] false :: as, sh => do
    let (sh, out) ← execCommand C c sh
    let (sh, out') ← execList C as sh
    some (sh, out ++ out')
  | _, _ => none

/-- The lines of a script are read and executed one after another (`parse_and_exec`, yash.c:534-,
without alias substitution). -/
def runLines (C : Config) : Nat → List Char → Shell → Option (Shell × List Char)
  | 0, _, _ => none
  | fuel + 1, text, sh =>
    if text.isEmpty then some (sh, [])
    else do
      let (cs, rest) ← Parser.parseLine C.locale text
      let (sh, out) ← execList C cs sh
      let (sh, out') ← runLines C fuel rest sh
      some (sh, out ++ out')

/-- Reading and executing a whole text. -/
def runScript (C : Config) (text : List Char) (sh : Shell) : Option (Shell × List Char) := runLines C (text.length + 1) text sh

end Yash.Restore
