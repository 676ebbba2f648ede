import Verif.Command.Props
import Verif.Alias.BuiltinExamples
/-! # Examples for property C88 -/
set_option autoImplicit false

namespace Yash.Command.Examples

open Spec
open Yash.Variable (Word Shell)
open Yash.Path (BuiltinType CommandInfo getvar)

def builtins (n : Word) : Option BuiltinType :=
  if n = "set".toList then some .special else if n = "cd".toList then some .mandatory else if n = "echo".toList then some .substitutive
  else if n = "array".toList then some .extension else none

def functions (n : Word) : Bool := n = "set".toList || n = "f".toList || n = "a/b".toList || n = "cd".toList

def exec (n : Word) : Bool := n = "/bin/ls".toList || n = "/bin/echo".toList || n = "bin/own".toList || n = "bin/echo".toList || n = "./x".toList

def C : Alias.Config := ⟨Expand.cLocale, false, fun c => '0' ≤ c && c ≤ '9', id⟩

def E : Env := ⟨C, [⟨"ll".toList, "ls -l".toList, false⟩, ⟨"G".toList, "| grep".toList, true⟩], exec, builtins, functions, some ["/bin".toList], fun d => d = "/home".toList || d = ".".toList,
  some "/real/home".toList⟩

/-- A shell with the variables `PATH` and `PWD`. -/
def shell (path pwd : String) : Shell := Variable.initEnvironment [("PATH".toList, path.toList), ("PWD".toList, pwd.toList)]

def sh : Shell := shell "bin:/bin" "/home"

/-- What is printed, and whether that is a success. -/
def seen (E : Env) (sh : Shell) (isType : Bool) (args : List String) : Option (String × Bool) :=
  match commandBuiltin E isType (args.map String.toList) sh with
  | some (.printed _ out ok) => some (String.ofList out, ok)
  | _ => none

/-- What is executed. -/
def executedInfo (E : Env) (sh : Shell) (args : List String) : Option CommandInfo :=
  match commandBuiltin E false (args.map String.toList) sh with
  | some (.run _ info _) => some info
  | _ => none

example : seen E sh false ["-v", "if", "ll", "set", "cd", "f", "array", "ls", "own", "./x"] =
    some ("if\nalias ll='ls -l'\nset\ncd\nf\narray\n/bin/ls\n/home/bin/own\n/home/./x\n", true) := by decide +kernel
example : seen E sh true ["if", "ll", "set", "cd", "own", "no", "echo"] = some (
    "if: a shell keyword\nll: an alias for `ls -l'\nset: a special built-in\ncd: a function\nown: an external command at /home/bin/own\n" ++
    "echo: a substitutive built-in for bin/echo\n", false) := by decide +kernel
example : seen E sh false ["-v", "G"] = some ("", false) := by decide +kernel
example : seen E sh false ["-bv", "cd", "f"] = some ("cd\n", false) := by decide +kernel
example : seen E sh false ["-pv", "own"] = some ("", false) := by decide +kernel
example : seen E sh false ["-v", "a/b"] = some ("", false) ∧ seen E sh false ["-vf", "a/b"] = some ("a/b\n", true) := by decide +kernel
example : executedInfo E sh ["cd"] = some (.builtin .mandatory) ∧ executedInfo E sh ["-f", "cd"] = some .function ∧ executedInfo E sh ["-e", "echo"] = some (.external "bin/echo".toList) ∧
    executedInfo E sh ["-p", "echo", "-v"] = some (.builtin .substitutive) ∧ executedInfo E sh ["a/b"] = some (.external "a/b".toList) ∧ executedInfo E sh ["f"] = some .none := by
  decide +kernel

theorem given_of {args operands : List Word} {letters : List Char} (h1 : letters = (Xgetopt.Spec.parse E.getopt none args).reports.map fun o => o.1.short)
    (h2 : (Xgetopt.Spec.parse E.getopt none args).operands = operands) (h3 : (Xgetopt.Spec.parse E.getopt none args).final = .done) : Given E args letters operands :=
  ⟨_, _, by rw [← h2, ← h3], h1⟩

/-- The hypotheses of `identified` and `agrees` are met, by names of all kinds. -/
example : Given E ["-v".toList, "own".toList] ['v'] ["own".toList] ∧ Verbose false ['v'] false ∧ "own".toList ∉ Parser.Spec.keywords ∧
    (∀ a, E.aliases.find? (fun a => a.name == "own".toList) = some a → a.isGlobal = true) ∧ E.cwd ≠ some [] :=
  ⟨given_of (by decide +kernel) (by decide +kernel) (by decide +kernel), .inr (.inl ⟨[], [], rfl, by simp, by simp, rfl⟩), by decide, by decide +kernel, by simp [E]⟩

/-- Those of `executed` are. -/
example : Given E ["-e".toList, "echo".toList, "-v".toList] ['e'] ["echo".toList, "-v".toList] := given_of (by decide +kernel) (by decide +kernel) (by decide +kernel)

/-- Those of `refused` are. -/
example : Given E ["-ab".toList, "echo".toList] ['a', 'b'] ["echo".toList] ∧ (Xgetopt.Spec.parse E.getopt none ["-x".toList]).final = .error .noSuchOption := ⟨given_of (by decide +kernel) (by decide +kernel) (by decide +kernel), by decide +kernel⟩

/-- Those of `alias_restored_partial` are. -/
example : Alias.Spec.ValidName E.config.locale "ll".toList ∧ Alias.Spec.Plain "ll".toList ∧ Alias.Spec.meaning E.aliases "ll".toList = some ("ls -l".toList, false) := by
  refine ⟨?_, ?_, by decide +kernel⟩
  · rw [Alias.valid_iff]; exact ⟨by decide, by decide +kernel⟩
  · unfold Alias.Spec.Plain; decide

end Yash.Command.Examples

namespace Yash.Command

open Examples

/-- The path of a substitutive built-in is printed as it was found, even if it is not absolute: with a relative directory in `PATH`, `command -v` prints
a relative pathname for `echo`, and an absolute one for a command in the same directory that is not a built-in. -/
theorem substitutive_relative : ∃ (E : Env) (sh : Variable.Shell),
    seen E sh false ["-v", "echo", "own"] = some ("bin/echo\n/home/bin/own\n", true) := ⟨E, sh, by decide +kernel⟩

/-- If `PWD` has been assigned a relative pathname of the current directory, `command -v` prints a relative pathname for an external command. -/
theorem pwd_relative : ∃ (E : Env) (sh : Variable.Shell), E.cwd = some "/real/home".toList ∧
    seen E sh false ["-v", "own"] = some ("./bin/own\n", true) := ⟨E, shell "bin:/bin" ".", rfl, by decide +kernel⟩

end Yash.Command
