import Verif.Hash.Props
/-! # Examples for property C91 -/
set_option autoImplicit false

namespace Yash.Hash.Examples

open Variable (Word Shell Scope Var get)
open Spec

def digit (c : Char) : Bool := '0' ≤ c && c ≤ '9'

/-- Two files, two users, a built-in. -/
def E : Env :=
  ⟨false, digit, fun n => n == "echo".toList, fun p => p == "/bin/ls".toList || p == "/bin/echo".toList || p == "rel/x".toList,
    fun u => if u == "ann".toList then some "/home/ann".toList else if u == "bob".toList then some "/home/bob".toList else none⟩

/-- Later: one of the users is gone, the other has moved. -/
def E' : Env := { E with passwd := fun u => if u == "ann".toList then some "/new/ann".toList else none }

def words (l : List String) : List Word := l.map String.toList

theorem given_of {E : Env} {args : List Word} {letters : List Char} {operands : List Word}
    (h : (Xgetopt.Spec.parse E.getopt none args).reports.map (fun o => o.1.short) = letters ∧ (Xgetopt.Spec.parse E.getopt none args).operands = operands ∧
      (match (Xgetopt.Spec.parse E.getopt none args).final with | .done => true | _ => false) = true) : Given E args letters operands := by
  obtain ⟨h1, h2, h3⟩ := h
  cases hp : Xgetopt.Spec.parse E.getopt none args with
  | mk reports used ops final =>
    rw [hp] at h1 h2 h3
    cases final with
    | done => exact ⟨reports, used, by rw [hp, ← h2], h1.symm⟩
    | error e => cases h3

def sh0 : Shell := Variable.initEnvironment [("PATH".toList, "/bin:rel".toList)]

def s0 : State := ⟨sh0, []⟩

/-- The remembered commands and directories, the lines and the status. -/
def show' : Result → List (Word × Word) × List (Word × Word) × List Word × Nat
  | .done s out st => (s.sh.cmdhash, s.homes, out, st)
  | _ => ([], [], [], 9)

example : show' (hashBuiltin E (words ["-d", "ann", "bob"]) s0) = ([], [("bob".toList, "/home/bob".toList), ("ann".toList, "/home/ann".toList)], [], 0) := by decide +kernel

def s1 : State := { s0 with homes := [("bob".toList, "/home/bob".toList), ("ann".toList, "/home/ann".toList)] }

example : show' (hashBuiltin E (words ["-d"]) s1) = ([], s1.homes, words ["~bob=/home/bob", "~ann=/home/ann"], 0) := by decide +kernel
example : show' (hashBuiltin E' (words ["-d", "ann", "bob"]) s1) = ([], [("ann".toList, "/new/ann".toList), ("bob".toList, "/home/bob".toList)], [], 1) := by decide +kernel
example : show' (hashBuiltin E' (words ["-dr", "bob"]) s1) = ([], [("ann".toList, "/home/ann".toList)], [], 0) := by decide +kernel
example : show' (hashBuiltin E' (words ["-a", "bob"]) s1) = ([], s1.homes, [], 2) := by decide +kernel
example : show' (hashBuiltin { E with posix := true } (words ["-d"]) s1) = ([], s1.homes, [], 2) := by decide +kernel

example : Given E (words ["-d", "ann"]) ['d'] (words ["ann"]) ∧ Given E (words ["-dr"]) ['d', 'r'] [] ∧ Given E (words ["ls", "x"]) [] (words ["ls", "x"]) :=
  ⟨given_of (by decide +kernel), given_of (by decide +kernel), given_of (by decide +kernel)⟩

example : show' (hashBuiltin E (words ["ls", "x", "echo", "a/b"]) s0) =
    ([("echo".toList, "/bin/echo".toList), ("x".toList, "rel/x".toList), ("ls".toList, "/bin/ls".toList)], [], [], 1) := by decide +kernel
example : show' (hashBuiltin { E with exec := fun _ => false } (words ["ls", "no"]) { s0 with sh := { sh0 with cmdhash := [("ls".toList, "/bin/ls".toList)] } }) = ([], [], [], 1) := by
  decide +kernel

def s2 : State := { s0 with sh := { sh0 with cmdhash := [("echo".toList, "/bin/echo".toList), ("x".toList, "rel/x".toList), ("ls".toList, "/bin/ls".toList)] } }

example : show' (hashBuiltin E (words []) s2) = (s2.sh.cmdhash, [], words ["/bin/ls"], 0) := by decide +kernel
example : show' (hashBuiltin E (words ["-a"]) s2) = (s2.sh.cmdhash, [], words ["/bin/echo", "/bin/ls"], 0) := by decide +kernel
example : show' (hashBuiltin E (words ["-r", "x"]) s2) = ([("echo".toList, "/bin/echo".toList), ("ls".toList, "/bin/ls".toList)], [], [], 0) := by decide +kernel
example : show' (hashBuiltin E (words ["-r"]) s2) = ([], [], [], 0) := by decide +kernel

/-- `~ann` gives the same directory after `hash ls` although the user has moved, and the new one after `hash -d ann`. -/
example :
    (do
      let (s, r1) ← runEvent s0 (.tilde E "ann".toList)
      let (s, _) ← runEvent s (.hash E' (words ["ls"]))
      let (s, r2) ← runEvent s (.tilde E' "ann".toList)
      let (s, _) ← runEvent s (.hash E' (words ["-d", "ann"]))
      let (_, r3) ← runEvent s (.tilde E' "ann".toList)
      pure [r1, r2, r3]) = some [some "/home/ann".toList, some "/home/ann".toList, some "/new/ann".toList] := by decide +kernel

/-- The hypotheses of `hash_stale` and of `tilde_history` are met: after `~bob`, the user is deleted. -/
example : ∃ h s, History h s ∧ Remembered h "bob".toList "/home/bob".toList ∧ get s.homes "bob".toList = some "/home/bob".toList ∧ E'.passwd "bob".toList = none ∧
    Given E' (words ["-d", "bob"]) ['d'] ["bob".toList] := by
  have hist : History [.tilde E "bob".toList] { s0 with homes := [("bob".toList, "/home/bob".toList)] } :=
    .event [] s0 _ _ (some "/home/bob".toList) (.start s0 rfl) (by rfl)
  exact ⟨_, _, hist, ⟨[], _, [], rfl, .inr ⟨rfl, by decide +kernel⟩, by simp⟩, by decide +kernel, by decide +kernel, given_of (by decide +kernel)⟩

end Yash.Hash.Examples
