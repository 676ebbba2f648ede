import Verif.Alias.Model
import Verif.Xgetopt.Spec
import Verif.Expand.Quote
/-!
# The `alias` and `unalias` built-ins (alias.c)

The table is a hash table in the code, and the list of its entries here (C01). Messages are left out, the standard output is assumed to accept everything,
and the help is not modelled.
-/
set_option autoImplicit false

namespace Yash.Alias

open Yash.Expand (Locale quoteAsWord)

abbrev Str := List Char

/-- What the built-ins depend on: the locale, `posixly_correct`, `iswdigit`, and `qsort` with `keywcscoll`. -/
structure Config where
  locale : Locale
  posix : Bool
  isDigit : Char → Bool
  sort : List Alias → List Alias

/-- The exit statuses 0, 1 (`Exit_FAILURE`) and 2 (`Exit_ERROR`). -/
inductive Status where
  | success | failure | error
deriving DecidableEq, Repr

/-- `is_alias_name_char` (alias.c:110-113). -/
def isAliasNameChar (L : Locale) (c : Char) : Bool := !(" \t\n=$<>\\'\"`;&|()#".toList.contains c) && !L.blank c

/-- `ht_remove(&aliases, name)` (alias.c:160). -/
def removeAlias (tbl : List Alias) (name : Str) : List Alias := tbl.filter fun a => a.name != name

/-- `define_alias` (alias.c:134-153). -/
def defineAlias (tbl : List Alias) (name value : Str) (global : Bool) : List Alias := ⟨name, value, global⟩ :: removeAlias tbl name

/-- `print_alias` (alias.c:369-391). -/
def printAlias (L : Locale) (name : Str) (a : Alias) (pre : Bool) : Str :=
  let qvalue := quoteAsWord L a.value
  if !pre then name ++ '=' :: (qvalue ++ ['\n'])
  else if a.isGlobal then
    if name.head? = some '-' then "alias -g -- ".toList ++ (name ++ '=' :: (qvalue ++ ['\n']))
    else "alias -g ".toList ++ (name ++ '=' :: (qvalue ++ ['\n']))
  else
    if name.head? = some '-' then "alias -- ".toList ++ (name ++ '=' :: (qvalue ++ ['\n']))
    else "alias ".toList ++ (name ++ '=' :: (qvalue ++ ['\n']))

/-- `alias_options` (alias.c:443-450). -/
def aliasOptions : List Xgetopt.Opt :=
  [⟨'g', some "global".toList, .none, false⟩, ⟨'p', some "prefix".toList, .none, false⟩, ⟨'-', some "help".toList, .none, false⟩]

/-- `all_help_options` (option.c:897-903). -/
def unaliasOptions : List Xgetopt.Opt :=
  [⟨'a', some "all".toList, .none, true⟩, ⟨'-', some "help".toList, .none, false⟩]

/-- The call of `xgetopt` (alias.c:461, 530). -/
def Config.getopt (C : Config) (opts : List Xgetopt.Opt) : Xgetopt.Config :=
  { opts := opts, posixlyCorrect := C.posix, flagPosix := false, flagDigit := false, isDigit := C.isDigit }

/-- One operand (alias.c:486-508): the table, what is printed, and whether there was no error. -/
def aliasOperand (C : Config) (global pre : Bool) (arg : Str) (tbl : List Alias) : List Alias × Str × Bool :=
  let name := arg.takeWhile (isAliasNameChar C.locale)
  match arg.dropWhile (isAliasNameChar C.locale) with
  | '=' :: value => if name.isEmpty then (tbl, [], false) else (defineAlias tbl name value global, [], true)
  | [] =>
    if name.isEmpty then (tbl, [], false)
    else
      match lookup tbl arg with
      | some a => (tbl, printAlias C.locale arg a pre, true)
      | none => (tbl, [], false)
  | _ => (tbl, [], false)

/-- The loop over the operands (alias.c:486-508). -/
def aliasLoop (C : Config) (global pre : Bool) : List Str → List Alias → List Alias × Str × Bool
  | [], tbl => (tbl, [], true)
  | arg :: args, tbl =>
    let (tbl, out, ok) := aliasOperand C global pre arg tbl
    let (tbl, out', ok') := aliasLoop C global pre args tbl
    (tbl, out ++ out', ok && ok')

/-- `alias_builtin` (alias.c:455-511). `none` is the help. -/
def aliasBuiltin (C : Config) (args : List Str) (tbl : List Alias) : Option (List Alias × Str × Status) :=
  let r := Xgetopt.Spec.parse (C.getopt aliasOptions) none args
  if r.reports.any fun o => o.1.short == '-' then none
  else
    match r.final with
    | .error _ => some (tbl, [], .error)
    | .done =>
      let global := r.reports.any fun o => o.1.short == 'g'
      let pre := r.reports.any fun o => o.1.short == 'p'
      if r.operands.isEmpty then some (tbl, (C.sort tbl).flatMap fun a => printAlias C.locale a.name a pre, .success)
      else
        let (tbl, out, ok) := aliasLoop C global pre r.operands tbl
        some (tbl, out, if ok then .success else .failure)

/-- The loop over the operands of `unalias` (alias.c:551-555), with `remove_alias` (alias.c:158-168). -/
def unaliasLoop : List Str → List Alias → List Alias × Bool
  | [], tbl => (tbl, true)
  | arg :: args, tbl =>
    let ok := (lookup tbl arg).isSome
    let (tbl, ok') := unaliasLoop args (removeAlias tbl arg)
    (tbl, ok && ok')

/-- `unalias_builtin` (alias.c:524-558). `none` is the help. -/
def unaliasBuiltin (C : Config) (args : List Str) (tbl : List Alias) : Option (List Alias × Str × Status) :=
  let r := Xgetopt.Spec.parse (C.getopt unaliasOptions) none args
  if r.reports.any fun o => o.1.short == '-' then none
  else
    match r.final with
    | .error _ => some (tbl, [], .error)
    | .done =>
      if r.reports.any fun o => o.1.short == 'a' then
        if r.operands.isEmpty then some ([], [], .success) else some (tbl, [], .error)
      else if r.operands.isEmpty then some (tbl, [], .error)
      else
        let (tbl, ok) := unaliasLoop r.operands tbl
        some (tbl, [], if ok then .success else .failure)

/-- `print_alias_if_defined` (alias.c:397-409), for `command -v`: what is printed, if anything. -/
def printIfDefined (C : Config) (name : Str) (tbl : List Alias) : Option Str :=
  match lookup tbl name with
  | some a => if a.isGlobal then none else some (printAlias C.locale name a true)
  | none => none

end Yash.Alias
