import Verif.Variable.Model
/-!
# Model of the getopts built-in (variable.c)

The options of the built-in itself (`--help`) and the messages are left out.  The arguments are those
after the option string and the variable name, or the positional parameters (variable.c:2554-2565):
in both cases an array that ends with `NULL`, here a list.
-/
set_option autoImplicit false

namespace Yash.Getopts

open Yash.Variable (Name Word Shell step)

/-- `ULONG_MAX + 1` -/
def ulongs : Nat := 18446744073709551616

/-- The loop of `check_options` (variable.c:2644-2660). -/
def checkLoop (posix : Bool) (alnum : Char → Bool) : List Char → Bool
  | [] => true
  | c :: s =>
    if c = ':' then false
    else if posix && (c == '?' || !alnum c) then false
    else
      match s with
      | ':' :: s' => checkLoop posix alnum s'
      | s' => checkLoop posix alnum s'

/-- `check_options` (variable.c:2640-2661). -/
def checkOptions (posix : Bool) (alnum : Char → Bool) (options : List Char) : Bool :=
  match options with
  | ':' :: s => checkLoop posix alnum s
  | s => checkLoop posix alnum s

/-- The digits at the beginning of a string, and the rest. -/
def scanDigits : List Char → Nat → Nat × List Char
  | [], n => (n, [])
  | c :: s, n => if '0' ≤ c ∧ c ≤ '9' then scanDigits s (n * 10 + (c.toNat - 48)) else (n, c :: s)

/-- The digits after the sign for `wcstoul`; `none` if there is none or the number is too large. -/
def wcstoulDigits (neg : Bool) (s : List Char) : Option (Nat × List Char) :=
  match s with
  | [] => none
  | c :: _ =>
    if '0' ≤ c ∧ c ≤ '9' then
      let (n, rest) := scanDigits s 0
      if ulongs ≤ n then none else some (if neg then (ulongs - n) % ulongs else n, rest)
    else none

/-- `wcstoul` with base 10, of the C library; `none` if nothing is converted or the number is too
large. -/
def wcstoul (isSpace : Char → Bool) (s : List Char) : Option (Nat × List Char) :=
  match s.dropWhile isSpace with
  | '-' :: s => wcstoulDigits true s
  | '+' :: s => wcstoulDigits false s
  | s => wcstoulDigits false s

/-- Parses `$OPTIND` (variable.c:2532-2552): the index of the argument and that of the character. -/
def parseOptind (isSpace : Char → Bool) (s : Word) : Option (Nat × Nat) :=
  match wcstoul isSpace s with
  | none => none
  | some (n, rest) =>
    let optind := (n + ulongs - 1) % ulongs
    match rest with
    | ':' :: rest' =>
      match wcstoul isSpace rest' with
      | some (sub, []) => if sub = 0 then none else some (optind, sub)
      | _ => none
    | _ => some (optind, 1)

/-- What one call finds. -/
inductive Found where
  | done (optind : Nat)
  | invalid (c : Char) (optind sub : Nat)
  | missing (c : Char) (optind sub : Nat)
  | flag (c : Char) (optind sub : Nat)
  | withArg (c : Char) (arg : Word) (optind sub : Nat)
deriving DecidableEq, Repr

/-- `&wcschr(options, c)[1]` -/
def afterChar (c : Char) : List Char → Option (List Char)
  | [] => none
  | d :: s => if d = c then some s else afterChar c s

/-- From the option character on (variable.c:2580-2627): `opt` is the character, `tail` the rest of the
argument, `rest` the arguments after it, `sub` the index of the next character. -/
def scanOption (options : List Char) (opt : Char) (tail : Word) (rest : List Word)
    (optind sub : Nat) : Found :=
  if opt = ':' then .invalid opt optind sub
  else
    match afterChar opt options with
    | none => .invalid opt optind sub
    | some (':' :: _) =>
      match tail with
      | [] =>
        match rest with
        | [] => .missing opt (optind + 2) 1
        | w :: _ => .withArg opt w (optind + 2) 1
      | _ :: _ => .withArg opt tail (optind + 1) 1
    | some _ => .flag opt optind sub

/-- From `parse_arg` on (variable.c:2569-2580), for the arguments from index `optind` on. -/
def parseArg (options : List Char) : List Word → Nat → Nat → Found
  | [], optind, _ => .done optind
  | arg :: rest, optind, sub =>
    match arg with
    | '-' :: c :: cs =>
      if c = '-' && cs.isEmpty then .done (optind + 1)
      else
        match arg.drop sub with
        | [] => parseArg options rest (optind + 1) 1
        | opt :: tail => scanOption options opt tail rest optind (sub + 1)
    | _ => .done optind

/-- The range check and `parse_arg` (variable.c:2554-2627). -/
def findOption (options : List Char) (args : List Word) (optind sub : Nat) : Found :=
  if args.length ≤ optind then .done optind
  else parseArg options (args.drop optind) optind sub

/-- `set_optind`: the text (variable.c:2665-2671). -/
def optindText (optind sub : Nat) : Word :=
  Nat.toDigits 10 ((optind + 1) % ulongs) ++ (if 1 < sub then ':' :: Nat.toDigits 10 sub else [])

/-- Assignments and removals of variables that `getopts` does. -/
inductive Action where
  | set (n : Name) (w : Word)
  | unset (n : Name)

/-- One of them; the result is whether it succeeds.  Simplified: the seed of `$RANDOM`, which only
matters when `$RANDOM` itself is assigned, never parses. -/
def act (sh : Shell) : Action → Option (Shell × Bool)
  | .set n w => step (fun _ => false) sh (.assign n (.scalar (some w)) .global false)
  | .unset n => step (fun _ => false) sh (.unset n)

/-- A sequence of actions under `TRY` (variable.c:2567): it ends at the first failure. -/
def actTry (sh : Shell) : List Action → Option (Shell × Bool)
  | [] => some (sh, true)
  | a :: as =>
    match act sh a with
    | none => none
    | some (sh', true) => actTry sh' as
    | some (sh', false) => some (sh', false)

/-- A sequence of actions whose failure is ignored. -/
def actAll (sh : Shell) : List Action → Option Shell
  | [] => some sh
  | a :: as =>
    match act sh a with
    | none => none
    | some (sh', _) => actAll sh' as

def optindName : Name := "OPTIND".toList
def optargName : Name := "OPTARG".toList

/-- What is assigned for what was found, in order (variable.c:2583-2637). -/
def actions (silent : Bool) (varname : Name) : Found → List Action
  | .done optind =>
    [.set optindName (optindText optind 0), .set varname ['?'], .unset optargName]
  | .invalid c optind sub =>
    [.set varname ['?'], if silent then .set optargName [c] else .unset optargName,
      .set optindName (optindText optind sub)]
  | .missing c optind sub =>
    [.set varname [if silent then ':' else '?'],
      if silent then .set optargName [c] else .unset optargName,
      .set optindName (optindText optind sub)]
  | .flag c optind sub =>
    [.unset optargName, .set varname [c], .set optindName (optindText optind sub)]
  | .withArg c arg optind sub =>
    [.set optargName arg, .set varname [c], .set optindName (optindText optind sub)]

/-- `getvar(L VAR_OPTIND)` (variable.c:2533, 809-820); `OPTIND` never has a getter. -/
def getScalar (sh : Shell) (n : Name) : Option Word :=
  match Yash.Variable.locate sh.scopes n with
  | some (_, v) =>
    match v.value with
    | .scalar w => w
    | .array _ => none
  | none => none

/-- `getopts_builtin` after its own options (variable.c:2520-2637): the new state and whether the exit
status is zero. -/
def getopts (posix : Bool) (alnum isSpace : Char → Bool) (sh : Shell) (options : List Char)
    (varname : Name) (args : List Word) : Option (Shell × Bool) :=
  if varname.contains '=' then some (sh, false)
  else if !checkOptions posix alnum options then some (sh, false)
  else
    match getScalar sh optindName with
    | none => some (sh, false)
    | some text =>
      match parseOptind isSpace text with
      | none => some (sh, false)
      | some (optind, sub) =>
        match findOption options args optind sub with
        | .done i => (actAll sh (actions (options.head? == some ':') varname (.done i))).map (·, false)
        | f => actTry sh (actions (options.head? == some ':') varname f)

end Yash.Getopts
