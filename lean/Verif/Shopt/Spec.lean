import Verif.Shopt.Model
/-!
# What options mean

The table of the options is shared with the model.
-/
set_option autoImplicit false

namespace Yash.Shopt.Spec

/-- The locale knows the letters of English, and the signs of options are not letters. -/
structure Letters (W : World) : Prop where
  minus : W.alnum '-' = false
  plus : W.alnum '+' = false
  alnum : ∀ c, 'a' ≤ c → c ≤ 'z' → W.alnum c = true
  lower : ∀ c, 'a' ≤ c → c ≤ 'z' → W.lower c = c

/-- The name of an option may be written in capital letters and with hyphens and the like in it. -/
def plainName (W : World) (name : Str) : Str := name.filterMap fun c => if W.alnum c then some (W.lower c) else none

/-- The full name of an option, with `no` in front of it if it is negated. -/
def Full (n : Str) (o : Opt) (neg : Bool) : Prop := o ∈ shellOptions ∧ n = (if neg then ['n', 'o'] else []) ++ o.name

/-- An abbreviation of the name of an option, with `no` in front of it if it is negated. -/
def Abbreviates (n : Str) (o : Opt) (neg : Bool) : Prop :=
  o ∈ shellOptions ∧ ∃ m rest, n = (if neg then ['n', 'o'] else []) ++ m ∧ o.name = m ++ rest

/-- A name stands for an option if it is its full name, or if it is an abbreviation of it but not of any other. -/
def Denotes (W : World) (name : Str) (o : Opt) (neg : Bool) : Prop :=
  Full (plainName W name) o neg ∨
  ((∀ p b, ¬Full (plainName W name) p b) ∧ Abbreviates (plainName W name) o neg ∧ ∀ p b, Abbreviates (plainName W name) p b → p = o ∧ b = neg)

/-- The option that is turned off when the option is turned on. -/
def rival : Var → Option Var
  | .vi => some .emacs
  | .emacs => some .vi
  | .leconvmeta => some .lenoconvmeta
  | .lenoconvmeta => some .leconvmeta
  | _ => none

/-- The options after one of them is turned on or off. -/
def turned (val : Var → Bool) (v : Var) (b : Bool) : Var → Bool := fun w =>
  if w = v then b else if b = true ∧ rival v = some w then false else val w

/-- The line editing mode is the one of the option that is on, and never are both on; likewise for the conversion of characters. -/
structure Consistent (s : State) : Prop where
  editor : ¬(s.val .vi = true ∧ s.val .emacs = true)
  meta8 : ¬(s.val .leconvmeta = true ∧ s.val .lenoconvmeta = true)
  vi : s.lineedit = .vi ↔ s.val .vi = true
  emacs : s.lineedit = .emacs ↔ s.val .emacs = true
  yes : s.convmeta = .yes ↔ s.val .leconvmeta = true
  no : s.convmeta = .no ↔ s.val .lenoconvmeta = true

/-- What is changed by `set` with options only: nothing but options. -/
structure Changed (s s' : State) (val : Var → Bool) : Prop where
  val : s'.val = val
  params : s'.params = s.params
  consistent : Consistent s → Consistent s'

/-- The other words that can be written after `--`, when the shell is started and in `set`. -/
def otherWords (starting : Bool) : List Str :=
  if starting then ["help".toList, "version".toList, "noprofile".toList, "norcfile".toList, "profile".toList, "rcfile".toList] else ["help".toList]

def sign (on : Bool) : Char := if on then '-' else '+'

/-- The ways of turning an option on or off: `-o name`, `-oname`, `--name`, `-c` and the same with `+`. -/
inductive Gives (W : World) (starting posix : Bool) : List Str → Opt → Bool → Prop where
  | separate (on : Bool) {name : Str} {o : Opt} {neg : Bool} (h : Denotes W name o neg) : Gives W starting posix [[sign on, 'o'], name] o (on != neg)
  | joined (on : Bool) {name : Str} {o : Opt} {neg : Bool} (h : Denotes W name o neg) : Gives W starting posix [sign on :: 'o' :: name] o (on != neg)
  | long (on : Bool) {name : Str} {o : Opt} {neg : Bool} (h : Denotes W name o neg) (hp : posix = false)
      (hn : on = true → ∀ w ∈ otherWords starting, ¬name.takeWhile (· ≠ '=') <+: w) : Gives W starting posix [sign on :: sign on :: name] o (on != neg)
  | letter (on : Bool) {c : Char} {o : Opt} (ho : o ∈ shellOptions) (h : o.enable = some c) : Gives W starting posix [[sign on, c]] o on
  | inverse (on : Bool) {c : Char} {o : Opt} (ho : o ∈ shellOptions) (h : o.disable = some c) : Gives W starting posix [[sign on, c]] o (!on)

/-- The options that can only be given when the shell is started. -/
def fixed : List Var := [.cmdline, .interactive, .login, .stdin]

/-- The states of a shell from its start on: the command line is parsed, the editing mode may be set, and `set` is executed any number of times. -/
inductive Reachable (W : World) : State → Prop where
  | start (s : State) (vi : s.val .vi = false) (emacs : s.val .emacs = false) (yes : s.val .leconvmeta = false) (no : s.val .lenoconvmeta = false)
      (h1 : s.lineedit = .noLineEdit) (h2 : s.convmeta = .auto) : Reachable W s
  | invoke {s s' : State} {args rest : List Str} {st : Status} {inv : Invocation} {inv' : Option Invocation} (h : Reachable W s)
      (hp : parseOptions W (some inv) args s = some ((st, inv', s'), rest)) : Reachable W s'
  | mode {s : State} (v : LineEdit) (h : Reachable W s) : Reachable W (setLineedit v s)
  | set {s s' : State} {args : List Str} {out : Str} {st : Status} (h : Reachable W s) (hs : setBuiltin W args s = some (out, st, s')) : Reachable W s'

end Yash.Shopt.Spec
