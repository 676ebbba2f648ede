import Verif.Xgetopt.Spec
/-!
# The `ulimit` built-in (builtins/ulimit.c)

All resources are available, as on Linux. Values of `rlim_t` and `unsigned long` are natural numbers below the parameters `rlimits` and `ulongs`. The system may
refuse to tell or to change a limit. Messages are left out, and the help is not modelled.
-/
set_option autoImplicit false

namespace Yash.Ulimit

abbrev Str := List Char

/-- The numbers of values of `rlim_t` and `unsigned long`; `RLIM_INFINITY`, `RLIM_SAVED_MAX`, `RLIM_SAVED_CUR`; `posixly_correct` and `iswdigit`. -/
structure Config where
  rlimits : Nat
  ulongs : Nat
  infinity : Nat
  savedMax : Nat
  savedCur : Nat
  posix : Bool
  isDigit : Char → Bool

/-- `struct rlimit`. -/
structure Limit where
  cur : Nat
  max : Nat
deriving DecidableEq, Repr

/-- The limits of the resources, which are named by their options. -/
abbrev State := Char → Limit

/-- Which calls of `getrlimit` and `setrlimit` succeed. -/
structure System where
  tells : Char → Bool
  allows : State → Char → Limit → Bool

/-- The exit statuses 0, 1 (`Exit_FAILURE`) and 2 (`Exit_ERROR`). -/
inductive Status where
  | success | failure | error
deriving DecidableEq, Repr

/-- `struct resource` (ulimit.c:50-54) with the option. -/
structure Resource where
  letter : Char
  long : Str
  factor : Nat
  description : Str
deriving DecidableEq, Repr

/-- The resources of `ulimit_options` (ulimit.c:65-123). -/
def resources : List Resource :=
  [⟨'c', "core".toList, 512, "core file size (blocks)".toList⟩,
   ⟨'d', "data".toList, 1024, "data segment size (kbytes)".toList⟩,
   ⟨'e', "nice".toList, 1, "max nice".toList⟩,
   ⟨'f', "fsize".toList, 512, "file size (blocks)".toList⟩,
   ⟨'i', "sigpending".toList, 1, "pending signals".toList⟩,
   ⟨'l', "memlock".toList, 1024, "locked memory (kbytes)".toList⟩,
   ⟨'m', "rss".toList, 1024, "resident set size (kbytes)".toList⟩,
   ⟨'n', "nofile".toList, 1, "open files".toList⟩,
   ⟨'q', "msgqueue".toList, 1, "message queue size (bytes)".toList⟩,
   ⟨'r', "rtprio".toList, 1, "real-time priority".toList⟩,
   ⟨'s', "stack".toList, 1024, "stack size (kbytes)".toList⟩,
   ⟨'t', "cpu".toList, 1, "CPU time (seconds)".toList⟩,
   ⟨'u', "nproc".toList, 1, "user processes".toList⟩,
   ⟨'v', "as".toList, 1024, "memory (kbytes)".toList⟩,
   ⟨'x', "locks".toList, 1, "file locks".toList⟩]

/-- `ulimit_options` (ulimit.c:65-123). -/
def options : List Xgetopt.Opt :=
  [⟨'H', some "hard".toList, .none, true⟩, ⟨'S', some "soft".toList, .none, true⟩, ⟨'a', some "all".toList, .none, true⟩] ++
    resources.map (fun r => ⟨r.letter, some r.long, .none, true⟩) ++ [⟨'-', some "help".toList, .none, false⟩]

/-- The call of `xgetopt` (ulimit.c:135). -/
def Config.getopt (C : Config) : Xgetopt.Config :=
  { opts := options, posixlyCorrect := C.posix, flagPosix := false, flagDigit := false, isDigit := C.isDigit }

/-- The variables `type`, `resourceoption`, `resource` and `print_all` (ulimit.c:128-131). -/
structure Vars where
  hard : Bool
  soft : Bool
  option : Option Char
  resource : Resource
  all : Bool

/-- `res_fsize` (ulimit.c:61-63). -/
def fsize : Resource := ⟨'f', "fsize".toList, 512, "file size (blocks)".toList⟩

/-- The `switch` (ulimit.c:136-152). -/
def Vars.option1 (v : Vars) (c : Char) : Vars :=
  if c = 'H' then { v with hard := true, soft := false }
  else if c = 'S' then { v with hard := false, soft := true }
  else if c = 'a' then { v with all := true }
  else
    match resources.find? fun r => r.letter == c with
    | some r => { v with option := some c, resource := r }
    | none => v

/-- `xwcstoul` (util.c:173-189) with base 10 for a text that begins with a digit. -/
def xwcstoul (C : Config) (s : Str) : Option Nat :=
  if s.all fun c => '0' ≤ c && c ≤ '9' then
    let v := s.foldl (fun n c => 10 * n + (c.toNat - 48)) 0
    if v < C.ulongs then some v else none
  else none

/-- The operand (ulimit.c:180-201). -/
def parseOperand (C : Config) (r : Resource) (l : Limit) (s : Str) : Except Status Nat :=
  if s = "hard".toList then .ok l.max
  else if s = "soft".toList then .ok l.cur
  else if s = "unlimited".toList then .ok C.infinity
  else
    match s with
    | c :: _ =>
      if '0' ≤ c && c ≤ '9' then
        match xwcstoul C s with
        | none => .error .error
        | some v =>
          let value := (v % C.rlimits * r.factor) % C.rlimits
          if value / r.factor ≠ v ∨ value = C.infinity ∨ value = C.savedMax ∨ value = C.savedCur then .error .failure else .ok value
      else .error .error
    | [] => .error .error

/-- `print_limit_value` (ulimit.c:259-267). -/
def printValue (C : Config) (soft : Bool) (l : Limit) (r : Resource) : Str :=
  let value := if soft then l.cur else l.max
  if value = C.infinity then "unlimited\n".toList else Nat.toDigits 10 (value / r.factor) ++ ['\n']

/-- The format `%-30s`. -/
def pad30 (s : Str) : Str := s ++ List.replicate (30 - s.length) ' '

/-- `print_all_limits` (ulimit.c:235-257). -/
def printAll (C : Config) (sys : System) (soft : Bool) (s : State) : List Resource → Str × Bool
  | [] => ([], true)
  | r :: rs =>
    let (out, ok) := printAll C sys soft s rs
    if sys.tells r.letter then
      ('-' :: r.letter :: ": ".toList ++ pad30 r.description ++ ' ' :: printValue C soft (s r.letter) r ++ out, ok)
    else (out, false)

/-- The soft limit exceeds the hard limit (ulimit.c:209-216). -/
def exceeds (C : Config) (l : Limit) : Bool :=
  l.max != C.infinity && l.max != C.savedMax && l.max != C.savedCur &&
    (l.cur == C.infinity || (l.cur != C.savedMax && l.cur != C.savedCur && decide (l.cur > l.max)))

/-- `ulimit_builtin` (ulimit.c:126-231). `none` is the help. -/
def ulimitBuiltin (C : Config) (sys : System) (args : List Str) (s : State) : Option (State × Str × Status) :=
  let p := Xgetopt.Spec.parse C.getopt none args
  if p.reports.any fun o => o.1.short == '-' then none
  else
    match p.final with
    | .error _ => some (s, [], .error)
    | .done =>
      let v := (p.reports.map fun o => o.1.short).foldl Vars.option1 ⟨true, true, none, fsize, false⟩
      if v.all then
        if v.option.isSome then some (s, [], .error)
        else if !p.operands.isEmpty then some (s, [], .error)
        else
          let (out, ok) := printAll C sys v.soft s resources
          some (s, out, if ok then .success else .failure)
      else
        match p.operands with
        | [] =>
          if sys.tells v.resource.letter then some (s, printValue C v.soft (s v.resource.letter) v.resource, .success)
          else some (s, [], .failure)
        | [operand] =>
          if sys.tells v.resource.letter then
            let l := s v.resource.letter
            match parseOperand C v.resource l operand with
            | .error st => some (s, [], st)
            | .ok value =>
              let l := { l with max := if v.hard then value else l.max }
              let l := { l with cur := if v.soft then value else l.cur }
              if exceeds C l then some (s, [], .failure)
              else if sys.allows s v.resource.letter l then some (fun c => if c = v.resource.letter then l else s c, [], .success)
              else some (s, [], .failure)
          else some (s, [], .failure)
        | _ => some (s, [], .error)

end Yash.Ulimit
