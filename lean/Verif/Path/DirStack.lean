import Verif.Path.Cd
/-!
# Model of the directory stack (variable.c): `pushd`, `popd` and `dirs`

The options have been parsed.  `none` is a failed assertion or an access outside of an array.  The
script in `YASH_AFTER_CD`, which `change_directory` executes, is the parameter `hook`.
-/
set_option autoImplicit false

namespace Yash.Path

open Variable (Name Word Shell setVariable unsetVariable locate putVar reexportIf)

def dirstackName : Name := "DIRSTACK".toList

/-- The value of decimal digits. -/
def digitsValue : Word → Nat → Option Nat
  | [], acc => some acc
  | c :: s, acc => if '0' ≤ c && c ≤ '9' then digitsValue s (acc * 10 + (c.toNat - '0'.toNat)) else none

/-- `xwcstol(s, 10, &num)` (util.c:154-170) for a string that begins with a sign; a value that does not
fit into `long` is an error. -/
def signedNumber : Word → Option Int
  | '+' :: c :: s =>
    match digitsValue (c :: s) 0 with
    | some n => if n ≤ 9223372036854775807 then some n else none
    | none => none
  | '-' :: c :: s =>
    match digitsValue (c :: s) 0 with
    | some n => if n ≤ 9223372036854775808 then some (-(n : Int)) else none
    | none => none
  | _ => none

/-- What `parse_dirstack_index` finds: an error has been reported, the string is no index, or it
designates an entry with an index, where the entry may be the value of `PWD` itself. -/
inductive Index where
  | error
  | notIndex
  | entry (index : Nat) (dir : Word) (isPwd : Bool)
deriving DecidableEq, Repr

/-- The elements of `DIRSTACK` if it is an array. -/
def dirstack (sh : Shell) : Option (List Word) :=
  match locate sh.scopes dirstackName with
  | some (_, v) =>
    match v.value with
    | .array vs => some vs
    | .scalar _ => none
  | none => none

/-- The label `return_pwd` (variable.c:1476-1485). -/
def pwdEntry (sh : Shell) (index : Nat) : Index :=
  match getvar sh pwdName with
  | some p => .entry index p true
  | none => .error

/-- `var->v_vals[index]` -/
def stackEntry (vs : List Word) (index : Nat) : Option Index := (vs[index]?).map fun d => .entry index d false

/-- `parse_dirstack_index` (variable.c:1427-1495). -/
def parseIndex (sh : Shell) (s : Word) : Option Index :=
  if s.head? != some '-' && s.head? != some '+' then some .notIndex
  else
    match signedNumber s with
    | none => some .notIndex
    | some num =>
      match dirstack sh with
      | none => if num = 0 then some (pwdEntry sh 0) else some .error
      | some vs =>
        if s.head? == some '+' && decide (num ≥ 0) then
          if num = 0 then some (pwdEntry sh vs.length)
          else if num.toNat > vs.length then some .error
          else stackEntry vs (vs.length - num.toNat)
        else if s.head? == some '-' && decide (num ≤ 0) then
          if num = -9223372036854775808 then some .error
          else if (-num).toNat > vs.length then some .error
          else if (-num).toNat = vs.length then some (pwdEntry sh (-num).toNat)
          else stackEntry vs (-num).toNat
        else some .notIndex

/-- `change_directory` (path.c:1218-1386) including `YASH_AFTER_CD`. -/
def changeDirectoryHook {N : Type} (seed : Word → Bool) (sys : Sys N) (posix : Bool) (hook : World N → World N)
    (w : World N) (operand : Word) (samePwd print logical : Bool) : Option (World N × CdResult) :=
  match changeDirectory seed sys posix w operand samePwd print logical with
  | none => none
  | some (w, .failure) => some (w, .failure)
  | some (w, .success out) => some (if posix then w else hook w, .success out)

/-- `get_dirstack` (variable.c:3127-3145): the new state, and whether there is a stack that can be
changed.  The variable that it returns is the one a search finds afterwards. -/
def getDirstack (seed : Word → Bool) (sh : Shell) : Option (Shell × Bool) :=
  match locate sh.scopes dirstackName with
  | some (_, v) =>
    match v.value with
    | .scalar _ => some (sh, false)
    | .array _ => some (sh, !v.readonly)
  | none => setVariable seed sh dirstackName (.array []) .global false

/-- Changes the elements of `DIRSTACK` in place, and the environment if `update` is true and the variable
is exported. -/
def editStack (sh : Shell) (update : Bool) (f : List Word → Option (List Word)) : Option Shell :=
  match locate sh.scopes dirstackName with
  | none => none
  | some (i, v) =>
    match v.value with
    | .scalar _ => none
    | .array vs =>
      match f vs with
      | none => none
      | some vs' =>
        some (reexportIf (update && v.exported) (putVar sh i dirstackName { v with value := .array vs' }) dirstackName)

/-- `remove_dirstack_entry_at` (variable.c:3162-3169). -/
def removeAt (index : Nat) (vs : List Word) : Option (List Word) :=
  if index < vs.length then some (vs.take index ++ vs.drop (index + 1)) else none

/-- The loop of `remove_dirstack_dups` (variable.c:3180-3182). -/
def removeDupsLoop (pwd : Word) : Nat → List Word → Option (List Word)
  | 0, vs => some vs
  | index + 1, vs =>
    match vs[index]? with
    | none => none
    | some d =>
      if pwd = d then
        match removeAt index vs with
        | none => none
        | some vs' => removeDupsLoop pwd index vs'
      else removeDupsLoop pwd index vs

/-- `remove_dirstack_dups` (variable.c:3174-3183). -/
def removeDups (pwd : Option Word) (vs : List Word) : Option (List Word) :=
  match pwd with
  | none => some vs
  | some p => removeDupsLoop p vs.length vs

/-- The entry is pushed and the designated one removed (variable.c:3112-3114). -/
def pushIndex (saved : Word) (index : Option Nat) (vs : List Word) : Option (List Word) :=
  match index with
  | none => some (vs ++ [saved])
  | some i => removeAt i (vs ++ [saved])

/-- What `pushd` does to the stack after the change of directory (variable.c:3112-3116). -/
def pushEdit (saved : Word) (index : Option Nat) (dups : Bool) (pwd : Option Word) (vs : List Word) :
    Option (List Word) :=
  match pushIndex saved index vs with
  | none => none
  | some vs => if dups then removeDups pwd vs else some vs

/-- The end of `pushd_builtin` after the change of directory (variable.c:3106-3119). -/
def pushStack {N : Type} (seed : Word → Bool) (w : World N) (saved : Word) (index : Option Nat) (dups : Bool)
    (out : Option Word) : Option (World N × CdResult) :=
  match getDirstack seed w.sh with
  | none => none
  | some (sh, false) => some (⟨sh, w.cwd⟩, .failure)
  | some (sh, true) =>
    (editStack sh true (pushEdit saved index dups (getvar sh pwdName))).map fun sh =>
      (⟨sh, w.cwd⟩, .success out)

/-- `pushd_builtin` from the call of `change_directory` on (variable.c:3096-3120). -/
def pushTo {N : Type} (seed : Word → Bool) (sys : Sys N) (posix : Bool) (hook : World N → World N) (w : World N)
    (logical dups : Bool) (saved dir : Word) (isPwd print : Bool) (index : Option Nat) :
    Option (World N × CdResult) :=
  match changeDirectoryHook seed sys posix hook w dir isPwd print logical with
  | none => none
  | some (w, .failure) => some (w, .failure)
  | some (w, .success out) => pushStack seed w saved index dups out

/-- `pushd_builtin` (variable.c:3044-3120) after the options; `operand` is the operand, or the argument of
`--default-directory` or `+1` if there is none (`given` is false then).  If the stack cannot be changed
after the change of directory, what has been printed is not part of the result. -/
def pushd {N : Type} (seed : Word → Bool) (sys : Sys N) (posix : Bool) (hook : World N → World N) (w : World N)
    (logical dups given : Bool) (operand : Word) : Option (World N × CdResult) :=
  match getvar w.sh pwdName with
  | none => some (w, .failure)
  | some saved =>
    if given && operand = ['-'] then
      match getvar w.sh oldpwdName with
      | none => some (w, .failure)
      | some [] => some (w, .failure)
      | some d => pushTo seed sys posix hook w logical dups saved d false true none
    else
      match parseIndex w.sh operand with
      | none => none
      | some .error => some (w, .failure)
      | some .notIndex => pushTo seed sys posix hook w logical dups saved operand false false none
      | some (.entry i d isPwd) => pushTo seed sys posix hook w logical dups saved d isPwd false (some i)

/-- The end of `popd_builtin` (variable.c:3241-3251): the topmost element is removed and becomes the
working directory.  If the script has removed the variable, the pointer to it is dangling. -/
def popTop {N : Type} (seed : Word → Bool) (sys : Sys N) (posix : Bool) (hook : World N → World N) (w : World N)
    (top : Word) : Option (World N × CdResult) :=
  match editStack w.sh false fun vs => some vs.dropLast with
  | none => none
  | some sh =>
    match changeDirectoryHook seed sys posix hook ⟨sh, w.cwd⟩ top false true true with
    | none => none
    | some (w, r) => (editStack w.sh true some).map fun sh => (⟨sh, w.cwd⟩, r)

/-- `popd_builtin` (variable.c:3195-3252) after the options. -/
def popd {N : Type} (seed : Word → Bool) (sys : Sys N) (posix : Bool) (hook : World N → World N) (w : World N)
    (operands : List Word) : Option (World N × CdResult) :=
  match (match operands with
    | [] => some ['+', '0']
    | [d] => some d
    | _ => none) with
  | none => some (w, .failure)
  | some arg =>
    match getDirstack seed w.sh with
    | none => none
    | some (sh, false) => some (⟨sh, w.cwd⟩, .failure)
    | some (sh, true) =>
      match dirstack sh with
      | none => none
      | some vs =>
        match vs.getLast? with
        | none => some (⟨sh, w.cwd⟩, .failure)
        | some top =>
          match parseIndex sh arg with
          | none => none
          | some .error => some (⟨sh, w.cwd⟩, .failure)
          | some .notIndex => some (⟨sh, w.cwd⟩, .failure)
          | some (.entry i _ _) =>
            if i < vs.length then
              (editStack sh true (removeAt i)).map fun sh => (⟨sh, w.cwd⟩, .success none)
            else popTop seed sys posix hook ⟨sh, w.cwd⟩ top

/-- The numbers and the directory that `print_dirstack_entry` prints (variable.c:3337-3344). -/
structure DirsLine where
  plus : Nat
  minus : Nat
  dir : Word
deriving DecidableEq, Repr

/-- The loop of `dirs` without operands (variable.c:3326-3331). -/
def dirsLoop (size : Nat) (vs : List Word) : Nat → Option (List DirsLine)
  | 0 => some []
  | i + 1 =>
    match vs[i]?, dirsLoop size vs i with
    | some d, some rest => some (⟨size - i, i, d⟩ :: rest)
    | _, _ => none

/-- `dirs_builtin` without operands (variable.c:3317-3332): the lines, and whether it succeeds. -/
def dirsAll (sh : Shell) : Option (List DirsLine × Bool) :=
  match getvar sh pwdName with
  | none => some ([], false)
  | some p =>
    let vs := (dirstack sh).getD []
    (dirsLoop vs.length vs vs.length).map fun ls => (⟨0, vs.length, p⟩ :: ls, true)

/-- `dirs_builtin` with operands (variable.c:3303-3316). -/
def dirsOperands (sh : Shell) : List Word → Option (List DirsLine × Bool)
  | [] => some ([], true)
  | s :: ss =>
    match parseIndex sh s, dirsOperands sh ss with
    | some (.entry i d _), some (ls, ok) => some (⟨((dirstack sh).getD []).length - i, i, d⟩ :: ls, ok)
    | some _, some (ls, _) => some (ls, false)
    | _, _ => none

/-- `dirs_builtin` (variable.c:3277-3335) after the options. -/
def dirs (sh : Shell) (clear : Bool) (operands : List Word) : Option (Shell × List DirsLine × Bool) :=
  if clear then
    let r := unsetVariable sh dirstackName
    some (r.1, [], r.2)
  else
    match (if operands.isEmpty then dirsAll sh else dirsOperands sh operands) with
    | none => none
    | some (ls, ok) => some (sh, ls, ok)

/-- What `print_dirstack_entry` prints (variable.c:3337-3344). -/
def DirsLine.text (verbose : Bool) (l : DirsLine) : Word :=
  if verbose then
    '+' :: Nat.toDigits 10 l.plus ++ '\t' :: '-' :: Nat.toDigits 10 l.minus ++ '\t' :: l.dir ++ ['\n']
  else l.dir ++ ['\n']

end Yash.Path
