import Verif.Startup.Props
import Verif.Shopt.Restore
/-!
# Examples for C93
-/
set_option autoImplicit false

namespace Yash.Startup.Demo

open Shopt (Str Var State demoWorld)

/-- A system in which `/h/.yash_profile` and `/h/.config/yash/rc` exist; the profile enables the POSIXly-correct mode if the rest of the state says
so. The rest of the state is that and the value of `ENV`. -/
def env (euid : Nat) (tty : Bool) : Env (Bool × Str) where
  world := demoWorld
  ttyIn := tty
  ttyErr := tty
  uid := 1000
  euid := euid
  gid := 1000
  egid := 1000
  prints := true
  script := fun p => if p = "script".toList then .opened else if p = "secret".toList then .otherError else .enoent
  var := fun s n =>
    if n = "HOME".toList then some "/h".toList else if n = "XDG_CONFIG_HOME".toList then some [] else if n = "ENV".toList then some s.rest.2 else none
  expand := fun s v => (s, some v)
  bytes := some
  canOpen := fun _ p => p ∈ ["/h/.yash_profile".toList, "/h/.config/yash/rc".toList, "/env".toList]
  run := fun s p => some (if p = "/h/.yash_profile".toList && s.rest.1 then { s with opts := s.opts.set .posixlycorrect true } else s)
  loadpath := fun _ => some ["/share".toList]
  readable := fun _ p => p = "/share/initialization/default".toList

def files : Option (Outcome (Bool × Str)) → Option (List Str)
  | some (.started _ f _) => some f
  | _ => none

def start : Option (Outcome (Bool × Str)) → Option (Input × Str × List Str × Bool × Bool)
  | some (.started s _ _) => some (s.input, s.name, s.opts.params, s.opts.val .interactive, s.opts.val .vi)
  | _ => none

def run (euid : Nat) (tty posix : Bool) (args : List String) := main (env euid tty) Shopt.fresh (posix, "/env".toList) (args.map String.toList)

-- An interactive login shell executes both files, in this order.
example : files (run 1000 true false ["-yash"]) = some ["/h/.yash_profile".toList, "/h/.config/yash/rc".toList] := by decide +kernel
-- If the profile enables the POSIXly-correct mode, then `ENV` counts.
example : files (run 1000 true true ["-yash"]) = some ["/h/.yash_profile".toList, "/env".toList] := by decide +kernel
example : files (run 1000 true false ["/bin/sh", "-l"]) = some ["/env".toList] := by decide +kernel
example : files (run 1000 true false ["yash", "--norcfile"]) = some [] := by decide +kernel
example : files (run 1000 true false ["yash", "--rcfile=/env"]) = some ["/env".toList] := by decide +kernel
-- `startup_rights`
example : files (run 0 true false ["-yash", "-i", "--profile=/env"]) = some [] := by decide +kernel
-- `startup_plain`
example : files (run 1000 true false ["yash", "script", "-l"]) = some [] := by decide +kernel
-- `startup_decided`
example : start (run 1000 true false ["yash", "script", "-l", "x"]) = some (.file "script".toList, "script".toList, ["-l".toList, "x".toList], false, false) := by
  decide +kernel
example : start (run 1000 true false ["yash", "-c", "echo $0", "a", "b"]) = some (.command "echo $0".toList "a".toList, "a".toList, ["b".toList], false, false) := by
  decide +kernel
example : start (run 1000 true false ["yash", "-c", "echo $0"]) = some (.command "echo $0".toList "yash -c".toList, "yash".toList, [], false, false) := by decide +kernel
example : start (run 1000 true false ["yash"]) = some (.stdin, "yash".toList, [], true, true) := by decide +kernel
example : start (run 1000 true false ["yash", "-s", "x"]) = some (.stdin, "yash".toList, ["x".toList], false, false) := by decide +kernel
example : start (run 1000 false false ["yash", "-i"]) = some (.stdin, "yash".toList, [], true, false) := by decide +kernel

def status : Option (Outcome (Bool × Str)) → Option Nat
  | some (.exit n) => some n
  | _ => none

example : status (run 1000 true false ["yash", "-cs", "x"]) = some 2 := by decide +kernel
example : status (run 1000 true false ["yash", "-c"]) = some 2 := by decide +kernel
example : status (run 1000 true false ["yash", "none"]) = some 127 := by decide +kernel
example : status (run 1000 true false ["yash", "secret"]) = some 126 := by decide +kernel
example : status (run 1000 true false ["yash", "--version"]) = some 0 := by decide +kernel

-- the hypotheses of the theorems about forms of the command line
example : Fresh Shopt.fresh := ⟨rfl, rfl, rfl⟩
example : Shopt.Spec.Letters (env 0 true).world := Shopt.demo_letters
-- `startup_name`
example : namedSh "-/bin/sh".toList = true ∧ namedSh "/bin/-sh".toList = true ∧ namedSh "/bin/--sh".toList = false ∧ namedSh "/sh/yash".toList = false ∧
    namedSh "bash".toList = false := by decide +kernel

end Yash.Startup.Demo
