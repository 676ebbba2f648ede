import Verif.Startup.Model
/-!
# Specification of the start of the shell

Which file is an initialization file, and what the arguments of the shell mean.
-/
set_option autoImplicit false

namespace Yash.Startup.Spec

open Shopt (Str Var State Invocation World)

variable {α : Type}

/-- The name of the program without directory is `sh` or `-sh`. -/
def CalledSh (name : Str) : Prop :=
  ∃ dir base, name = dir ++ base ∧ (dir = [] ∨ ∃ d, dir = d ++ ['/']) ∧ (base = ['s', 'h'] ∨ base = ['-', 's', 'h'])

/-- The user who has started the shell is the one with whose rights it runs. -/
def OwnRights (E : Env α) : Prop := E.uid = E.euid ∧ E.gid = E.egid

/-- A file in a directory that is named by a variable: there is none if the variable is unset or empty. -/
def inDir (dir : Option Str) (file : Str) : List Str :=
  match dir with
  | none => []
  | some [] => []
  | some d => if d.getLast? = some '/' then [d ++ file] else [d ++ ['/'] ++ file]

/-- Of the files, the first one that can be opened is executed; if there is none, then nothing happens. -/
inductive FirstRun (E : Env α) (s : Sys α) : List Str → List Str → Option (Sys α) → Prop where
  | nothing {names : List Str} (h : ∀ p ∈ names, E.canOpen s p = false) : FirstRun E s names [] (some s)
  | first {before after : List Str} {p : Str} (h : ∀ q ∈ before, E.canOpen s q = false) (hp : E.canOpen s p = true) :
      FirstRun E s (before ++ p :: after) [p] (E.run s p)

/-- The places of the profile: the file given by `--profile`, or the three default places. -/
def profilePlaces (E : Env α) (s : Sys α) (given : Option Str) : List Str :=
  match given with
  | some f => [f]
  | none =>
    inDir (E.var s "XDG_CONFIG_HOME".toList) "yash/profile".toList ++ inDir (E.var s "HOME".toList) ".config/yash/profile".toList ++
      inDir (E.var s "HOME".toList) ".yash_profile".toList

/-- The default initialization file: the first readable regular file of the name in the directories of the load path. -/
inductive DefaultRc (E : Env α) (s : Sys α) : List Str → Prop where
  | found {dirs before after : List Str} {d : Str} (h : E.loadpath s = some dirs) (hd : dirs = before ++ d :: after)
      (hb : ∀ b ∈ before, E.readable s (Path.whichPath b "initialization/default".toList) = false)
      (hr : E.readable s (Path.whichPath d "initialization/default".toList) = true) : DefaultRc E s [Path.whichPath d "initialization/default".toList]
  | missing (h : ∀ dirs, E.loadpath s = some dirs → ∀ b ∈ dirs, E.readable s (Path.whichPath b "initialization/default".toList) = false) :
      DefaultRc E s []

/-- The names as the system takes them: those that can be converted. -/
def asBytes (E : Env α) (names : List Str) : List Str := names.filterMap E.bytes

/-- What is executed as the initialization file of an interactive shell. -/
inductive RcRun (E : Env α) (s : Sys α) (given : Option Str) : List Str → Option (Sys α) → Prop where
  | posixUnset (h : s.opts.val .posixlycorrect = true) (hv : E.var s "ENV".toList = none) : RcRun E s given [] (some s)
  | posix {value : Str} {files : List Str} {out : Option (Sys α)} (h : s.opts.val .posixlycorrect = true) (hv : E.var s "ENV".toList = some value)
      (hr : FirstRun E (E.expand s value).1 (asBytes E (E.expand s value).2.toList) files out) : RcRun E s given files out
  | given {f : Str} {files : List Str} {out : Option (Sys α)} (h : s.opts.val .posixlycorrect = false) (hg : given = some f)
      (hr : FirstRun E s (asBytes E [f]) files out) : RcRun E s given files out
  | places {d files : List Str} {out : Option (Sys α)} (h : s.opts.val .posixlycorrect = false) (hg : given = none) (hd : DefaultRc E s d)
      (hr : FirstRun E s (asBytes E (inDir (E.var s "XDG_CONFIG_HOME".toList) "yash/rc".toList ++ inDir (E.var s "HOME".toList) ".config/yash/rc".toList ++
        inDir (E.var s "HOME".toList) ".yashrc".toList) ++ d) files out) : RcRun E s given files out

/-- What is executed before the input: the profile by a login shell, then the initialization file by an interactive shell; nothing if the rights are
not the user's own. If the shell exits in the profile, then that is all. -/
inductive Initialized (E : Env α) (inv : Invocation) (s : Sys α) : List Str → Option (Sys α) → Prop where
  | mk {p : List Str} {mid : Option (Sys α)} {files : List Str} {out : Option (Sys α)}
      (profile : s.opts.val .login = true ∧ s.opts.val .posixlycorrect = false ∧ inv.noprofile = false ∧ OwnRights E →
        FirstRun E s (asBytes E (profilePlaces E s inv.profile)) p mid)
      (noProfile : ¬(s.opts.val .login = true ∧ s.opts.val .posixlycorrect = false ∧ inv.noprofile = false ∧ OwnRights E) → p = [] ∧ mid = some s)
      (exited : mid = none → files = p ∧ out = none)
      (rc : ∀ s', mid = some s' → s'.opts.val .interactive = true ∧ inv.norcfile = false ∧ OwnRights E →
        ∃ r, files = p ++ r ∧ RcRun E s' inv.rcfile r out)
      (noRc : ∀ s', mid = some s' → ¬(s'.opts.val .interactive = true ∧ inv.norcfile = false ∧ OwnRights E) → files = p ∧ out = some s') :
      Initialized E inv s files out

/-- Arguments with which the shell does not start, and its exit status; `s` are the options. -/
inductive Rejected (E : Env α) (s : State) : List Str → Nat → Prop where
  | both {ops : List Str} (hc : s.val .cmdline = true) (hs : s.val .stdin = true) : Rejected E s ops 2
  | noCommand (hc : s.val .cmdline = true) (hs : s.val .stdin = false) : Rejected E s [] 2
  | missing {path : Str} {args : List Str} (hc : s.val .cmdline = false) (hs : s.val .stdin = false) (h : E.script path = .enoent) : Rejected E s (path :: args) 127
  | cannotOpen {path : Str} {args : List Str} (hc : s.val .cmdline = false) (hs : s.val .stdin = false) (h : E.script path = .otherError) :
      Rejected E s (path :: args) 126

/-- What the operands mean: what is executed, the value of `$0`, the positional parameters, and whether the shell is interactive. `name` is the name
with which the shell has been called; `s` are the options. -/
inductive Decided (E : Env α) (name : Str) (inv : Invocation) (s : State) : List Str → Input → Str → List Str → Bool → Prop where
  | commandOnly {cmd : Str} (hc : s.val .cmdline = true) (hs : s.val .stdin = false) :
      Decided E name inv s [cmd] (.command cmd (if s.val .posixlycorrect then "sh -c".toList else "yash -c".toList)) name [] (s.val .interactive)
  | command {cmd n : Str} {args : List Str} (hc : s.val .cmdline = true) (hs : s.val .stdin = false) :
      Decided E name inv s (cmd :: n :: args) (.command cmd n) n args (s.val .interactive)
  | stdin' {ops : List Str} {b : Bool} (hc : s.val .cmdline = false) (hs : s.val .stdin = true ∨ ops = [])
      (hb : b = true ↔ s.val .interactive = true ∨ inv.interactiveSet = false ∧ ops = [] ∧ E.ttyIn = true ∧ E.ttyErr = true) :
      Decided E name inv s ops .stdin name ops b
  | file {path : Str} {args : List Str} (hc : s.val .cmdline = false) (hs : s.val .stdin = false) (h : E.script path = .opened) :
      Decided E name inv s (path :: args) (.file path) path args (s.val .interactive)

end Yash.Startup.Spec
