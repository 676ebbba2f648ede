/-!
# Model of the option parser of built-in commands (xgetopt.c)

A wide string is a `List Char`; `argv` is the list of the strings before the terminating `NULL`.
The option table `opts` is the list of the entries before the sentinel.  The static variables of the
file are the fields of `State`.  An access out of bounds and a failing `assert` are `none`.  Error
messages are not modelled, only the kind of error.
-/
set_option autoImplicit false

namespace Yash.Xgetopt

/-- A command line argument. -/
abbrev Arg := List Char

/-- xgetopt.h `enum optarg_T`. -/
inductive OptArg where
  | none
  | required
  | optional
deriving DecidableEq, Repr

/-- xgetopt.h `struct xgetopt_T` without the unused member `ptr`. -/
structure Opt where
  short : Char
  long : Option (List Char)
  arg : OptArg
  posix : Bool
deriving DecidableEq, Repr

/-- The parameters of a parse: the table, `posixly_correct`, the two flags of `enum xgetoptopt_T`,
and the locale's `iswdigit`. -/
structure Config where
  opts : List Opt
  posixlyCorrect : Bool
  flagPosix : Bool
  flagDigit : Bool
  isDigit : Char → Bool

/-- xgetopt.c:164: in the POSIXly correct mode `XGETOPT_POSIX` is assumed... -/
def Config.posix (cfg : Config) : Bool := cfg.posixlyCorrect || cfg.flagPosix

/-- ... and `XGETOPT_DIGIT` ignored. -/
def Config.digit (cfg : Config) : Bool := !cfg.posixlyCorrect && cfg.flagDigit

/-- The static and global variables (xgetopt.c:66-93). -/
structure State where
  argv : List Arg
  xoptind : Nat
  argvindex : Nat
  charindex : Nat
  xoptarg : Option Arg
deriving DecidableEq, Repr

/-- xgetopt.c:143-149: the state after the reset at the beginning of `xgetopt`. -/
def State.start (argv : List Arg) (xoptarg : Option Arg) : State :=
  { argv, xoptind := 1, argvindex := 1, charindex := 1, xoptarg }

/-- The errors that are reported (xgetopt.c:395-462). -/
inductive Err where
  | noSuchOption
  | ambiguous
  | missingArgument
  | unwantedArgument
deriving DecidableEq, Repr

/-- What a call returns. -/
inductive Outcome where
  | option (o : Opt)
  | error (e : Err)
  | done
deriving DecidableEq, Repr

/-- xgetopt.c:376-377: the loop of `argshift`. -/
def shiftLoop (xoptind : Nat) : Nat → List Arg → Option (List Arg)
  | 0, a => some a
  | i + 1, a =>
    if i + 1 > xoptind then
      match a[i]? with
      | some x => if i + 1 < a.length then shiftLoop xoptind i (a.set (i + 1) x) else none
      | none => none
    else some a

/-- xgetopt.c:371-381 `argshift`. -/
def argshift (s : State) : Option State :=
  match s.argv[s.argvindex]? with
  | none => none
  | some x =>
    if s.xoptind ≤ s.argvindex then
      match shiftLoop s.xoptind s.argvindex s.argv with
      | none => none
      | some a =>
        some { s with argv := a.set s.xoptind x, argvindex := s.argvindex + 1,
                      xoptind := s.xoptind + 1 }
    else none

/-- xgetopt.c:326-332 `finish_parsing_current_argument`. -/
def finishArg (o : Opt) (s : State) : Option (Outcome × State) :=
  match argshift s with
  | none => none
  | some s => some (.option o, { s with charindex := 1 })

/-- xgetopt.c:345-356 `parse_separate_option_argument`.  `argv[argvindex + 1]` may be the
terminating `NULL`. -/
def parseSeparate (o : Opt) (s : State) : Option (Outcome × State) :=
  if s.argvindex + 1 ≤ s.argv.length then
    match s.argv[s.argvindex + 1]? with
    | none => some (.error .missingArgument, { s with xoptarg := none })
    | some x =>
      match argshift { s with xoptarg := some x } with
      | none => none
      | some s =>
        match argshift s with
        | none => none
        | some s => some (.option o, { s with charindex := 1 })
  else none

/-- xgetopt.c:212-238 `found_short_option`. -/
def foundShort (arg : Arg) (o : Opt) (s : State) : Option (Outcome × State) :=
  match o.arg with
  | .none =>
    if (arg[s.charindex + 1]?).isSome then some (.option o, { s with charindex := s.charindex + 1 })
    else finishArg o s
  | _ =>
    let s := { s with xoptarg := some (arg.drop (s.charindex + 1)) }
    if arg.drop (s.charindex + 1) = [] ∧ o.arg = .required then parseSeparate o s
    else finishArg o s

/-- Entries usable in the current mode (xgetopt.c:201, 257). -/
def usable (cfg : Config) (o : Opt) : Bool := o.posix || !cfg.posixlyCorrect

/-- xgetopt.c:187-207 `parse_short_option`. -/
def parseShort (cfg : Config) (arg : Arg) (s : State) : Option (Outcome × State) :=
  match arg[s.charindex]? with
  | none => none
  | some c =>
    if c = '-' then some (.error .noSuchOption, s)
    else
      match cfg.opts.find? (fun o => usable cfg o && o.short == c) with
      | some o => foundShort arg o s
      | none => some (.error .noSuchOption, s)

/-- xgetopt.c:253-276: the loop that identifies a long option; `m` is `match`. -/
def matchLong (cfg : Config) (name : List Char) : List Opt → Option Opt → Err ⊕ Opt
  | [], some o => .inr o
  | [], none => .inl .noSuchOption
  | o :: os, m =>
    if !usable cfg o then matchLong cfg name os m
    else
      match o.long with
      | none => matchLong cfg name os m
      | some l =>
        if l.take name.length ≠ name then matchLong cfg name os m
        else if l.length = name.length then .inr o
        else
          match m with
          | none => matchLong cfg name os (some o)
          | some _ => .inl .ambiguous

/-- xgetopt.c:287-312 `found_long_option`; `eq` is the text from the first `=`. -/
def foundLong (eq : List Char) (o : Opt) (s : State) : Option (Outcome × State) :=
  match o.arg with
  | .none => if eq ≠ [] then some (.error .unwantedArgument, s) else finishArg o s
  | _ =>
    if eq ≠ [] then finishArg o { s with xoptarg := some (eq.drop 1) }
    else
      match o.arg with
      | .optional => finishArg o s
      | .required => parseSeparate o s
      | .none => none

/-- xgetopt.c:241-280 `parse_long_option`. -/
def parseLong (cfg : Config) (arg : Arg) (s : State) : Option (Outcome × State) :=
  if arg.drop 2 = [] then
    match argshift s with
    | none => none
    | some s => some (.done, s)
  else if cfg.posixlyCorrect then some (.error .noSuchOption, s)
  else
    let name := (arg.drop 2).takeWhile (· != '=')
    match matchLong cfg name cfg.opts none with
    | .inl e => some (.error e, s)
    | .inr o => foundLong (arg.drop (name.length + 2)) o s

/-- xgetopt.c:160-184 `search_argv`; the loop runs at most `argv.length` times. -/
def searchArgv (cfg : Config) : Nat → State → Option (Outcome × State)
  | 0, _ => none
  | fuel + 1, s =>
    if s.argvindex > s.argv.length then none
    else
      match s.argv[s.argvindex]? with
      | none => some (.done, s)
      | some arg =>
        let next : Option (Outcome × State) :=
          if cfg.posix then some (.done, s)
          else searchArgv cfg fuel { s with argvindex := s.argvindex + 1 }
        match arg with
        | '-' :: '-' :: _ => parseLong cfg arg s
        | '-' :: c :: _ =>
          if !cfg.digit || !cfg.isDigit c then parseShort cfg arg s else next
        | _ => next

/-- xgetopt.c:137-157 `xgetopt`, for `xoptind ≠ 0` (see `State.start` for the first call). -/
def xgetopt (cfg : Config) (s : State) : Option (Outcome × State) :=
  if s.xoptind ≤ s.argvindex then searchArgv cfg (s.argv.length + 1) s else none

/-- An option reported to the caller, with its argument if it takes one. -/
abbrev Report := Opt × Option Arg

/-- How a sequence of calls ends. -/
inductive Final where
  | done
  | error (e : Err)
deriving DecidableEq, Repr

/-- The caller's loop: call `xgetopt` until it returns no option. -/
inductive Runs (cfg : Config) : State → List Report → Final → State → Prop
  | done (s s' : State) : xgetopt cfg s = some (.done, s') → Runs cfg s [] .done s'
  | error (s s' : State) (e : Err) : xgetopt cfg s = some (.error e, s') →
      Runs cfg s [] (.error e) s'
  | option (s s' s'' : State) (o : Opt) (rs : List Report) (f : Final) :
      xgetopt cfg s = some (.option o, s') → Runs cfg s' rs f s'' →
      Runs cfg s ((o, if o.arg = .none then none else s'.xoptarg) :: rs) f s''

end Yash.Xgetopt
