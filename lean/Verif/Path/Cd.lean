import Verif.Path.Canon
import Verif.Path.Which
/-!
# Model of `cd` and `pwd` (path.c) and of the initial `PWD` (variable.c)

Strings are wide strings, and conversions from and to multibyte strings never fail.  The system calls
are a parameter.  Writing to the standard output never fails.
-/
set_option autoImplicit false

namespace Yash.Path

open Variable (Name Word Shell setVariable locate getPathArray get)

/-- The system calls, for a process that works in a given directory. -/
structure Sys (N : Type) where
  /-- `chdir` -/
  chdir : N → Word → Option N
  /-- `is_directory` (path.c:187-192) -/
  isDir : N → Word → Bool
  /-- `xgetcwd` (path.c:230-252) -/
  getcwd : N → Option Word
  /-- `is_same_file` (path.c:203-208) -/
  sameFile : N → Word → Word → Bool

/-- The variables of the shell and its working directory. -/
structure World (N : Type) where
  sh : Shell
  cwd : N

def pwdName : Name := "PWD".toList
def oldpwdName : Name := "OLDPWD".toList

/-- `getvar` (variable.c:809-820) for a variable without a getter. -/
def getvar (sh : Shell) (n : Name) : Option Word :=
  match locate sh.scopes n with
  | some (_, v) =>
    match v.value with
    | .scalar w => w
    | .array _ => none
  | none => none

/-- `set_variable(name, value, SCOPE_GLOBAL, false)` where the result is not used. -/
def setScalar (seed : Word → Bool) (sh : Shell) (n : Name) (w : Word) : Option Shell :=
  (setVariable seed sh n (.scalar (some w)) .global false).map (·.1)

/-- What the first part of `change_directory` decides: it fails, or it goes on. -/
inductive Prep where
  | fail (sh : Shell)
  | go (sh : Shell) (logical : Bool) (origpwd : Option Word)

/-- The assertions after the first part of `change_directory` (path.c:1253-1254). -/
def checkPrep (sh : Shell) (logical : Bool) (origpwd : Option Word) : Option Prep :=
  match origpwd with
  | none => if logical then none else some (.go sh logical none)
  | some p => if p.head? = some '/' then some (.go sh logical (some p)) else none

/-- The first part of `change_directory` (path.c:1225-1254).  `samePwd` is true if the operand is the
value of `PWD` itself and not a copy. -/
def prepare {N : Type} (seed : Word → Bool) (sys : Sys N) (w : World N) (samePwd logical : Bool) :
    Option Prep :=
  let origpwd := getvar w.sh pwdName
  if origpwd.bind (·.head?) = some '/' then checkPrep w.sh logical origpwd
  else if samePwd then some (.fail w.sh)
  else
    match sys.getcwd w.cwd with
    | none => if logical then some (.fail w.sh) else checkPrep w.sh logical origpwd
    | some p =>
      match setVariable seed w.sh pwdName (.scalar (some p)) .global false with
      | none => none
      | some (sh, true) => checkPrep sh logical (getvar sh pwdName)
      | some (sh, false) => checkPrep sh false none

/-- Whether the operand begins with a dot or dot-dot component (path.c:1265-1266). -/
def startsWithDot (operand : Word) : Bool :=
  match operand with
  | ['.'] => true
  | '.' :: '/' :: _ => true
  | ['.', '.'] => true
  | '.' :: '.' :: '/' :: _ => true
  | _ => false

/-- Steps 3 to 6 (path.c:1258-1295): the path of the new directory, and whether it was found in
`CDPATH` under another name. -/
def findDir (isDir : Word → Bool) (cdpath : Option (List Word)) (operand : Word) : Word × Bool :=
  if operand.head? = some '/' || startsWithDot operand then (operand, false)
  else
    match which operand (some (cdpath.getD [[]])) isDir with
    | some path => (path, operand != path)
    | none => (operand, false)

/-- Step 7 (path.c:1300-1307). -/
def absolute (origpwd curpath : Word) : Word :=
  if curpath.head? = some '/' then curpath
  else if origpwd.getLast? = some '/' then origpwd ++ curpath
  else origpwd ++ '/' :: curpath

/-- `matchwcsprefix` (util.c:207-215). -/
def matchPrefix : Word → Word → Option Word
  | s, [] => some s
  | [], _ :: _ => none
  | c :: s, d :: p => if d = c then matchPrefix s p else none

/-- Step 9 (path.c:1321-1334): the part of the path that `chdir` is called with; `none` is the failed
assertion. -/
def relativePart (origpwd curpath : Word) : Option Word :=
  if origpwd.dropWhile (· == '/') = [] then some curpath
  else
    match matchPrefix curpath origpwd with
    | none => some curpath
    | some s =>
      if origpwd.getLast? = some '/' || s.head? = some '/' then
        let s' := if s.head? = some '/' then s.drop 1 else s
        if s'.head? = some '/' then none else some s'
      else some curpath

/-- The result of `change_directory`: the exit status is success, with what has been printed, or
failure. -/
inductive CdResult where
  | success (printed : Option Word)
  | failure
deriving DecidableEq, Repr

/-- The assignment of `OLDPWD` (path.c:1361-1362). -/
def setOldpwd (seed : Word → Bool) (sh : Shell) (origpwd : Option Word) : Option Shell :=
  match origpwd with
  | some p => setScalar seed sh oldpwdName p
  | none => some sh

/-- The end of `change_directory`, after `chdir` (path.c:1360-1381). -/
def finish {N : Type} (seed : Word → Bool) (sys : Sys N) (posix : Bool) (sh : Shell) (cwd : N)
    (origpwd : Option Word) (logical print : Bool) (curpath : Word) : Option (World N × CdResult) :=
  match setOldpwd seed sh origpwd with
  | none => none
  | some sh =>
    if logical then
      let path := if posix then curpath else canonicalizeEx (sys.sameFile cwd "/".toList "/..".toList) curpath
      (setScalar seed sh pwdName path).map fun sh =>
        (⟨sh, cwd⟩, .success (if print then some path else none))
    else
      match sys.getcwd cwd with
      | none => some (⟨sh, cwd⟩, .success none)
      | some path =>
        (setScalar seed sh pwdName path).map fun sh =>
          (⟨sh, cwd⟩, .success (if print then some path else none))

/-- Step 10 (path.c:1336-1352): `chdir`. -/
def enterDir {N : Type} (seed : Word → Bool) (sys : Sys N) (posix : Bool) (sh : Shell) (cwd : N)
    (origpwd : Option Word) (logical print : Bool) (curpath target : Word) :
    Option (World N × CdResult) :=
  match sys.chdir cwd target with
  | none => some (⟨sh, cwd⟩, .failure)
  | some n => finish seed sys posix sh n origpwd logical print curpath

/-- Steps 3 to 10 of `change_directory` (path.c:1258-1381). -/
def goTo {N : Type} (seed : Word → Bool) (sys : Sys N) (posix : Bool) (sh : Shell) (cwd : N)
    (origpwd : Option Word) (logical print : Bool) (operand : Word) : Option (World N × CdResult) :=
  let found := findDir (sys.isDir cwd) (getPathArray sh.scopes "CDPATH".toList) operand
  if logical then
    match origpwd with
    | none => none
    | some orig =>
      match canonicalize (sys.isDir cwd) (absolute orig found.1) with
      | .overflow => none
      | .notDir => some (⟨sh, cwd⟩, .failure)
      | .ok path =>
        match relativePart orig path with
        | none => none
        | some target => enterDir seed sys posix sh cwd origpwd true (print || found.2) path target
  else enterDir seed sys posix sh cwd origpwd false (print || found.2) found.1 found.1

/-- `change_directory` (path.c:1218-1386) up to the point where `YASH_AFTER_CD` is executed; `none` is a
failed assertion. -/
def changeDirectory {N : Type} (seed : Word → Bool) (sys : Sys N) (posix : Bool) (w : World N)
    (operand : Word) (samePwd print logical : Bool) : Option (World N × CdResult) :=
  match prepare seed sys w samePwd logical with
  | none => none
  | some (.fail sh) => some (⟨sh, w.cwd⟩, .failure)
  | some (.go sh logical origpwd) => goTo seed sys posix sh w.cwd origpwd logical print operand

/-- `cd_builtin` (path.c:1162-1210) after the options; `dflt` is the argument of
`--default-directory`. -/
def cd {N : Type} (seed : Word → Bool) (sys : Sys N) (posix : Bool) (w : World N) (logical : Bool)
    (dflt : Option Word) (operands : List Word) : Option (World N × CdResult) :=
  match operands with
  | [] =>
    match dflt with
    | some d => changeDirectory seed sys posix w d false false logical
    | none =>
      match getvar w.sh "HOME".toList with
      | none => some (w, .failure)
      | some [] => some (w, .failure)
      | some d => changeDirectory seed sys posix w d false false logical
  | [d] =>
    if d = ['-'] then
      match getvar w.sh oldpwdName with
      | none => some (w, .failure)
      | some [] => some (w, .failure)
      | some d => changeDirectory seed sys posix w d false true logical
    else changeDirectory seed sys posix w d false false logical
  | _ => some (w, .failure)

/-- `pwd_builtin` (path.c:1504-1551) after the options: what it prints, or `none` for failure. -/
def pwd {N : Type} (sys : Sys N) (w : World N) (logical : Bool) : Option Word :=
  match getvar w.sh pwdName with
  | some p =>
    if logical && p.head? = some '/' && isNormalizedAt p && sys.sameFile w.cwd p ".".toList then some p
    else sys.getcwd w.cwd
  | none => sys.getcwd w.cwd

/-- The part of `init_pwd` that sets the variable (variable.c:369-383). -/
def resetPwd {N : Type} (seed : Word → Bool) (sys : Sys N) (w : World N) : Option (World N) :=
  match sys.getcwd w.cwd with
  | none => some w
  | some p =>
    (setVariable seed w.sh pwdName (.scalar (some p)) .global true).map fun r => ⟨r.1, w.cwd⟩

/-- `init_pwd` (variable.c:358-384). -/
def initPwd {N : Type} (seed : Word → Bool) (sys : Sys N) (w : World N) : Option (World N) :=
  match get w.sh.environ pwdName with
  | none => resetPwd seed sys w
  | some e =>
    if e.head? = some '/' && sys.sameFile w.cwd e ".".toList then
      match getvar w.sh pwdName with
      | none => resetPwd seed sys w
      | some p => if isNormalizedAt p then some w else resetPwd seed sys w
    else resetPwd seed sys w

end Yash.Path
