import Verif.Xgetopt.Model
/-!
# Specification of option parsing

A recursive reading of the argument list, without indices or reordering.  `parse` tells which
options are reported with which arguments, which command line arguments are option strings or
option arguments (`used`), and which are operands.
-/
set_option autoImplicit false

namespace Yash.Xgetopt.Spec

/-- The result of reading an argument list. -/
structure Result where
  reports : List Report
  used : List Arg
  operands : List Arg
  final : Final

/-- The kinds of arguments. -/
inductive Kind where
  | operand
  | separator
  | long (name eq : List Char)
  | short (cluster : List Char)

/-- The kind of an argument: `--` is the separator, `--name` and `--name=value` are long options,
`-x...` are short options (unless numbers are operands and `x` is a digit). -/
def kind (cfg : Config) : Arg → Kind
  | ['-', '-'] => .separator
  | '-' :: '-' :: s => .long (s.takeWhile (· != '=')) (s.dropWhile (· != '='))
  | '-' :: c :: s => if (!cfg.posixlyCorrect && cfg.flagDigit) && cfg.isDigit c then .operand else .short (c :: s)
  | _ => .operand

/-- Short options: the first usable entry. -/
def findShort (cfg : Config) (c : Char) : Option Opt :=
  if c = '-' then none else cfg.opts.find? (fun o => (o.posix || !cfg.posixlyCorrect) && o.short == c)

/-- What a single argument string says. -/
inductive Single where
  /-- The options are complete. -/
  | complete (rs : List Report) (last : Option Arg)
  /-- The last option needs the next command line argument. -/
  | needs (rs : List Report) (o : Opt)
  /-- An error after the given options. -/
  | bad (rs : List Report) (e : Err)

/-- Adds a report in front. -/
def Single.cons (r : Report) : Single → Single
  | .complete rs l => .complete (r :: rs) l
  | .needs rs o => .needs (r :: rs) o
  | .bad rs e => .bad (r :: rs) e

/-- A cluster of short options `-xyz`; `last` is the previous value of the argument variable. -/
def cluster (cfg : Config) (last : Option Arg) : List Char → Single
  | [] => .complete [] last
  | c :: cs =>
    match findShort cfg c with
    | none => .bad [] .noSuchOption
    | some o =>
      match o.arg with
      | .none => Single.cons (o, none) (cluster cfg last cs)
      | .required => if cs = [] then .needs [] o else .complete [(o, some cs)] (some cs)
      | .optional => .complete [(o, some cs)] (some cs)

/-- The entry may be used, and its long name starts with the given text. -/
def candidate (cfg : Config) (name : List Char) (o : Opt) : Bool :=
  (o.posix || !cfg.posixlyCorrect) && (match o.long with
    | some l => name.isPrefixOf l
    | none => false)

/-- Long options: a unique entry whose name starts with the given text.  An exact match takes
precedence if it is among the first two entries that match. -/
def findLong (cfg : Config) (name : List Char) : Err ⊕ Opt :=
  match cfg.opts.filter (candidate cfg name) with
  | [] => .inl .noSuchOption
  | [o] => .inr o
  | o₁ :: o₂ :: _ =>
    if o₁.long = some name then .inr o₁
    else if o₂.long = some name then .inr o₂
    else .inl .ambiguous

/-- A long option.  The argument variable keeps its previous value `last` when an optional argument
is not given. -/
def long (cfg : Config) (last : Option Arg) (name eq : List Char) : Single :=
  if cfg.posixlyCorrect then .bad [] .noSuchOption
  else
    match findLong cfg name with
    | .inl e => .bad [] e
    | .inr o =>
      match o.arg, eq with
      | .none, [] => .complete [(o, none)] last
      | .none, _ :: _ => .bad [] .unwantedArgument
      | _, _ :: v => .complete [(o, some v)] (some v)
      | .optional, [] => .complete [(o, last)] last
      | .required, [] => .needs [] o

/-- Reads an argument list (without the command name). -/
def parse (cfg : Config) (last : Option Arg) (args : List Arg) : Result :=
  match args with
  | [] => ⟨[], [], [], .done⟩
  | a :: rest =>
    let single : Option Single :=
      match kind cfg a with
      | .long name eq => some (long cfg last name eq)
      | .short cs => some (cluster cfg last cs)
      | _ => none
    match single with
    | some (.complete rs l) =>
      let r := parse cfg l rest
      { r with reports := rs ++ r.reports, used := a :: r.used }
    | some (.bad rs e) => ⟨rs, [], a :: rest, .error e⟩
    | some (.needs rs o) =>
      match rest with
      | [] => ⟨rs, [], [a], .error .missingArgument⟩
      | b :: rest =>
        let r := parse cfg (some b) rest
        { r with reports := rs ++ (o, some b) :: r.reports, used := a :: b :: r.used }
    | none =>
      match kind cfg a with
      | .separator => ⟨[], [a], rest, .done⟩
      | _ =>
        if cfg.posixlyCorrect || cfg.flagPosix then ⟨[], [], a :: rest, .done⟩
        else
          let r := parse cfg last rest
          { r with operands := a :: r.operands }
termination_by structural args

end Yash.Xgetopt.Spec
