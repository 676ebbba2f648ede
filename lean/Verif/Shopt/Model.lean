/-!
# Model of the shell options (`option.c`)

The configuration is the one with line editing, history, help and the built-in `test`. The messages of errors are left out. `none` as a
result means a failed assertion or reading an element that a list does not have.
-/
set_option autoImplicit false

namespace Yash.Shopt

abbrev Str := List Char

/-- The variables that hold the options; they are named as the options are (option.c:59-202, yash.h, job.h). -/
inductive Var where
  | allexport | braceexpand | caseglob | clobber | cmdline | curasync | curbg | curstop | dotglob | emacs | emptylastfield | errexit | errreturn
  | exec | extendedglob | forlocal | glob | hashondef | histspace | ignoreeof | interactive | lealwaysrp | lecompdebug | leconvmeta
  | lenoconvmeta | lepredict | lepredictempty | lepromptsp | letrimright | levisiblebell | log | login | markdirs | monitor | notify | notifyle
  | nullglob | pipefail | posixlycorrect | stdin | traceall | unset | verbose | vi | xtrace
  deriving DecidableEq, Repr

/-- `struct option_T` (option.c:205-210). -/
structure Opt where
  enable : Option Char
  disable : Option Char
  name : Str
  var : Var
  resettable : Bool
  deriving DecidableEq, Repr

/-- `shell_options` (option.c:213-270). -/
def shellOptions : List Opt := [
  ⟨some 'a', none, "allexport".toList, .allexport, true⟩,
  ⟨none, none, "braceexpand".toList, .braceexpand, true⟩,
  ⟨none, none, "caseglob".toList, .caseglob, true⟩,
  ⟨none, some 'C', "clobber".toList, .clobber, true⟩,
  ⟨some 'c', none, "cmdline".toList, .cmdline, false⟩,
  ⟨none, none, "curasync".toList, .curasync, true⟩,
  ⟨none, none, "curbg".toList, .curbg, true⟩,
  ⟨none, none, "curstop".toList, .curstop, true⟩,
  ⟨none, none, "dotglob".toList, .dotglob, true⟩,
  ⟨none, none, "emacs".toList, .emacs, true⟩,
  ⟨none, none, "emptylastfield".toList, .emptylastfield, true⟩,
  ⟨some 'e', none, "errexit".toList, .errexit, true⟩,
  ⟨none, none, "errreturn".toList, .errreturn, true⟩,
  ⟨none, some 'n', "exec".toList, .exec, true⟩,
  ⟨none, none, "extendedglob".toList, .extendedglob, true⟩,
  ⟨none, none, "forlocal".toList, .forlocal, true⟩,
  ⟨none, some 'f', "glob".toList, .glob, true⟩,
  ⟨some 'h', none, "hashondef".toList, .hashondef, true⟩,
  ⟨none, none, "histspace".toList, .histspace, true⟩,
  ⟨none, none, "ignoreeof".toList, .ignoreeof, true⟩,
  ⟨some 'i', none, "interactive".toList, .interactive, false⟩,
  ⟨none, none, "lealwaysrp".toList, .lealwaysrp, true⟩,
  ⟨none, none, "lecompdebug".toList, .lecompdebug, true⟩,
  ⟨none, none, "leconvmeta".toList, .leconvmeta, true⟩,
  ⟨none, none, "lenoconvmeta".toList, .lenoconvmeta, true⟩,
  ⟨none, none, "lepredict".toList, .lepredict, true⟩,
  ⟨none, none, "lepredictempty".toList, .lepredictempty, true⟩,
  ⟨none, none, "lepromptsp".toList, .lepromptsp, true⟩,
  ⟨none, none, "letrimright".toList, .letrimright, true⟩,
  ⟨none, none, "levisiblebell".toList, .levisiblebell, true⟩,
  ⟨none, none, "log".toList, .log, true⟩,
  ⟨some 'l', none, "login".toList, .login, false⟩,
  ⟨none, none, "markdirs".toList, .markdirs, true⟩,
  ⟨some 'm', none, "monitor".toList, .monitor, true⟩,
  ⟨some 'b', none, "notify".toList, .notify, true⟩,
  ⟨none, none, "notifyle".toList, .notifyle, true⟩,
  ⟨none, none, "nullglob".toList, .nullglob, true⟩,
  ⟨none, none, "pipefail".toList, .pipefail, true⟩,
  ⟨none, none, "posixlycorrect".toList, .posixlycorrect, true⟩,
  ⟨some 's', none, "stdin".toList, .stdin, false⟩,
  ⟨none, none, "traceall".toList, .traceall, true⟩,
  ⟨none, some 'u', "unset".toList, .unset, true⟩,
  ⟨some 'v', none, "verbose".toList, .verbose, true⟩,
  ⟨none, none, "vi".toList, .vi, true⟩,
  ⟨some 'x', none, "xtrace".toList, .xtrace, true⟩]

/-- The options of the command line that are not shell options (option.c:272-282). -/
inductive Normal where
  | help | version | noprofile | norcfile | profile | rcfile
  deriving DecidableEq, Repr

/-- The members of `struct xgetopt_T` that are used: the character (`-` if there is none), the name, whether an argument is required, and whether
the option can be used for the built-in `set`. -/
structure NormalOpt where
  short : Char
  name : Str
  required : Bool
  forSet : Bool
  which : Normal
  deriving DecidableEq, Repr

/-- `normal_options` (option.c:289-300). All of them are extensions to POSIX. -/
def normalOptions : List NormalOpt := [
  ⟨'-', "help".toList, false, true, .help⟩,
  ⟨'V', "version".toList, false, false, .version⟩,
  ⟨'-', "noprofile".toList, false, false, .noprofile⟩,
  ⟨'-', "norcfile".toList, false, false, .norcfile⟩,
  ⟨'-', "profile".toList, true, false, .profile⟩,
  ⟨'-', "rcfile".toList, true, false, .rcfile⟩]

/-- `enum shopt_lineedit_T` (option.h). -/
inductive LineEdit where
  | noLineEdit | vi | emacs
  deriving DecidableEq, Repr

/-- `enum shopt_yesnoauto_T` (option.h). -/
inductive YesNoAuto where
  | yes | no | auto
  deriving DecidableEq, Repr

/-- The options, the variables `shopt_lineedit` and `shopt_le_convmeta`, and the positional parameters. -/
structure State where
  val : Var → Bool
  lineedit : LineEdit
  convmeta : YesNoAuto
  params : List Str

/-- `struct shell_invocation_T` (option.h). -/
structure Invocation where
  help : Bool := false
  version : Bool := false
  noprofile : Bool := false
  norcfile : Bool := false
  profile : Option Str := none
  rcfile : Option Str := none
  interactiveSet : Bool := false
  jobControlSet : Bool := false
  lineeditSet : Bool := false

/-- `iswalnum`, `towlower`, and whether the terminal is open or can be opened. -/
structure World where
  alnum : Char → Bool
  lower : Char → Char
  tty : Bool

/-- `Exit_SUCCESS`, `Exit_FAILURE` and `Exit_ERROR`. -/
inductive Status where
  | success | failure | error
  deriving DecidableEq, Repr

/-- The new states and the result of a function. -/
abbrev Res := Status × Option Invocation × State

/-- `*optp = enable`. -/
def State.set (s : State) (v : Var) (b : Bool) : State := { s with val := fun w => if w = v then b else s.val w }

/-- `update_lineedit_option` (option.c:715-723). -/
def updateLineedit (s : State) : State :=
  { s with lineedit := if s.val .vi then .vi else if s.val .emacs then .emacs else .noLineEdit }

/-- `update_le_convmeta_option` (option.c:727-735). -/
def updateConvmeta (s : State) : State :=
  { s with convmeta := if s.val .leconvmeta then .yes else if s.val .lenoconvmeta then .no else .auto }

/-- What is recorded about the command line (option.c:669-674, 687-688, 693-694). -/
def Invocation.note (v : Var) (i : Invocation) : Invocation :=
  if v = .interactive then { i with interactiveSet := true }
  else if v = .monitor then { i with jobControlSet := true }
  else if v = .vi || v = .emacs then { i with lineeditSet := true }
  else i

/-- Enabling job control fails if the terminal cannot be opened (option.c:675-681, redir.c:271-281). The signal settings of job control are in the model of C51. -/
def startMonitor (W : World) (inv : Option Invocation) (v : Var) (s : State) : State :=
  if inv.isNone && v = .monitor && s.val .monitor && !W.tty then s.set .monitor false else s

/-- Options that exclude each other (option.c:684-705). -/
def exclude (v : Var) (enable : Bool) (s : State) : State :=
  if v = .vi then updateLineedit (if enable then s.set .emacs false else s)
  else if v = .emacs then updateLineedit (if enable then s.set .vi false else s)
  else if v = .leconvmeta then updateConvmeta (if enable then s.set .lenoconvmeta false else s)
  else if v = .lenoconvmeta then updateConvmeta (if enable then s.set .leconvmeta false else s)
  else s

/-- `set_shell_option` (option.c:658-709). -/
def setShellOption (W : World) (inv : Option Invocation) (o : Opt) (enable : Bool) (s : State) : Res :=
  if inv.isNone && !o.resettable then (.error, inv, s)
  else
    let s := exclude o.var enable (startMonitor W inv o.var (s.set o.var enable))
    (if s.val o.var = enable then .success else .failure, inv.map (Invocation.note o.var), s)

/-- `set_normal_option` (option.c:741-784). Printing the help of `set` is left out. -/
def setNormalOption (inv : Option Invocation) (which : Normal) (arg : Option Str) (s : State) : Option Res :=
  match inv with
  | none => if which = .help then some (.success, none, s) else none
  | some i =>
    match which with
    | .help => some (.success, some { i with help := true }, s)
    | .version => some (.success, some { i with version := true }, s)
    | .noprofile => some (.success, some { i with noprofile := true }, s)
    | .norcfile => some (.success, some { i with norcfile := true }, s)
    | .profile => if arg.isSome then some (.success, some { i with profile := arg }, s) else none
    | .rcfile => if arg.isSome then some (.success, some { i with rcfile := arg }, s) else none

/-- `normalize_option_name` (option.c:402-410). -/
def normalize (W : World) (s : Str) : Str := (s.filter W.alnum).map W.lower

/-- `matchwcsprefix`: the rest of the string after the prefix. -/
def afterPrefix : Str → Str → Option Str
  | s, [] => some s
  | [], _ :: _ => none
  | c :: s, d :: p => if c = d then afterPrefix s p else none

/-- `search_shell_options` (option.c:530-546): the new contents of the list. -/
def searchShell (name : Str) : List Opt → List Opt → List Opt
  | [], found => found
  | o :: os, found =>
    match afterPrefix o.name name with
    | some [] => [o]
    | some _ => searchShell name os (found ++ [o])
    | none => searchShell name os found

/-- `collect_matching_shell_options` (option.c:513-524): the list and the index. -/
def collect (W : World) (name : Str) : List Opt × Nat :=
  let n := normalize W name
  let found := searchShell n shellOptions []
  match afterPrefix n ['n', 'o'] with
  | some rest => (searchShell rest shellOptions found, found.length)
  | none => (found, found.length)

/-- `search_normal_options` (option.c:552-572): the options that are added. If one matches exactly, all others, and also the shell options that were found
before, are removed, which is the first component. -/
def searchNormal (posix : Bool) (inv : Option Invocation) (name : Str) : List NormalOpt → Bool × List NormalOpt
  | [] => (false, [])
  | o :: os =>
    if posix then searchNormal posix inv name os
    else if (name.takeWhile (· ≠ '=')).isPrefixOf o.name && (inv.isSome || o.forSet) then
      if o.name = name.takeWhile (· ≠ '=') then (true, [o])
      else
        let (b, l) := searchNormal posix inv name os
        (b, if b then l else o :: l)
    else searchNormal posix inv name os

/-- `handle_search_result` (option.c:581-654). `shell` and `normal` are the two parts of the list; `noIndex` is where the inverted ones begin and `shellCount` is the
length of the list before normal options were added. `arg` is the argument that the option is in and `rest` the arguments after it. The result includes
the arguments that are left. -/
def handleResult (W : World) (inv : Option Invocation) (shell : List Opt) (normal : List NormalOpt) (enable : Bool) (noIndex shellCount : Nat) (arg : Str)
    (rest : List Str) (s : State) : Option (Res × List Str) :=
  if noIndex ≤ shellCount && shellCount ≤ shell.length + normal.length then
    match shell, normal with
    | [], [] => some ((.error, inv, s), rest)
    | [o], [] => if shellCount > 0 then some (setShellOption W inv o (if noIndex = 0 then !enable else enable) s, rest) else none
    | [], [o] =>
      if shellCount > 0 then none
      else
        match arg.dropWhile (· ≠ '='), o.required with
        | [], true =>
          match rest with
          | [] => some ((.error, inv, s), rest)
          | a :: rest => (setNormalOption inv o.which (some a) s).map (·, rest)
        | _ :: a, true => (setNormalOption inv o.which (some a) s).map (·, rest)
        | [], false => (setNormalOption inv o.which none s).map (·, rest)
        | _ :: _, false => some ((.error, inv, s), rest)
    | _, _ => some ((.error, inv, s), rest)
  else none

/-- `parse_option_character` (option.c:453-476). -/
def parseChar (W : World) (inv : Option Invocation) (c : Char) (enable : Bool) (s : State) : Option Res :=
  match shellOptions.find? fun o => o.enable = some c || o.disable = some c with
  | some o => some (setShellOption W inv o (if o.enable = some c then enable else !enable) s)
  | none =>
    match normalOptions.find? fun o => c ≠ '-' && !s.val .posixlycorrect && o.short = c && (inv.isSome || o.forSet) with
    | some o => setNormalOption inv o.which none s
    | none => some (.error, inv, s)

/-- `parse_short_option` (option.c:415-449): the characters after the hyphen, and the arguments after this one. -/
def parseShort (W : World) (inv : Option Invocation) (enable : Bool) : Str → List Str → State → Option (Res × List Str)
  | [], rest, s => some ((.success, inv, s), rest)
  | c :: cs, rest, s =>
    if c = 'o' then
      match cs, rest with
      | [], [] => some ((.error, inv, s), rest)
      | [], name :: rest =>
        let (l, i) := collect W name
        handleResult W inv l [] enable i l.length name rest s
      | _ :: _, _ =>
        let (l, i) := collect W cs
        handleResult W inv l [] enable i l.length cs rest s
    else do
      let (st, inv', s') ← parseChar W inv c enable s
      if st = .success then parseShort W inv' enable cs rest s' else some ((st, inv', s'), rest)

/-- `parse_long_option` (option.c:481-505): the argument, and the arguments after it. -/
def parseLong (W : World) (inv : Option Invocation) (enable : Bool) (arg : Str) (rest : List Str) (s : State) : Option (Res × List Str) :=
  if s.val .posixlycorrect then handleResult W inv [] [] enable 0 0 arg rest s
  else
    let (l, i) := collect W arg
    if enable then
      let (cleared, n) := searchNormal (s.val .posixlycorrect) inv (arg.drop 2) normalOptions
      handleResult W inv (if cleared then [] else l) n enable i l.length arg rest s
    else handleResult W inv l [] enable i l.length arg rest s

/-- An argument with options (option.c:374-386); `c` is its first character and `cs` the others. -/
def parseArg (W : World) (inv : Option Invocation) (enable : Bool) (c : Char) (cs : Str) (rest : List Str) (s : State) : Option (Res × List Str) :=
  if cs.head? = some c then parseLong W inv enable (c :: cs) rest s else parseShort W inv enable cs rest s

/-- `parse_shell_options` (option.c:353-397): the arguments from `xoptind` on; `fuel` bounds their number. The result includes the operands. -/
def parseLoop (W : World) : Nat → Option Invocation → List Str → State → Option (Res × List Str)
  | 0, _, _, _ => none
  | _ + 1, inv, [], s => some ((.success, inv, s), [])
  | fuel + 1, inv, arg :: rest, s =>
    let operands := fun (args : List Str) => some ((Status.success, inv, if inv.isNone then { s with params := args } else s), args)
    let main := fun (args : List Str) => if args.isEmpty then some ((Status.success, inv, s), args) else operands args
    let go := fun (enable : Bool) (c : Char) (cs : Str) =>
      match cs with
      | [] => main (if enable && inv.isSome then rest else arg :: rest)
      | d :: ds =>
        if d = c && ds.isEmpty then operands (if enable then rest else arg :: rest)
        else do
          let ((st, inv, s), rest) ← parseArg W inv enable c cs rest s
          if st = .success then parseLoop W fuel inv rest s else some ((st, inv, s), rest)
    match arg with
    | '-' :: cs => go true '-' cs
    | '+' :: cs => go false '+' cs
    | _ => main (arg :: rest)

/-- `parse_shell_options` (option.c:353-397). -/
def parseOptions (W : World) (inv : Option Invocation) (args : List Str) (s : State) : Option (Res × List Str) := parseLoop W (args.length + 1) inv args s

/-- `test_option_unique` (option.c:823-839). -/
def testOption (W : World) (s : State) (name : Str) : Option Bool :=
  match collect W name with
  | ([o], i) => some (s.val o.var != (i == 0))
  | _ => none

/-- `get_hyphen_parameter` (option.c:845-858). -/
def hyphen (s : State) : Str :=
  shellOptions.flatMap fun o =>
    (match o.enable with
      | some c => if s.val o.var then [c] else []
      | none => []) ++
    (match o.disable with
      | some c => if s.val o.var then [] else [c]
      | none => [])

/-- `set_builtin_print_restoring_commands` (option.c:940-949). -/
def restoring (s : State) : Str :=
  shellOptions.flatMap fun o => if o.resettable then "set ".toList ++ (if s.val o.var then '-' else '+') :: "o ".toList ++ o.name ++ ['\n'] else []

/-- `set_builtin` (option.c:911-923) with at least one argument, except for `set -o`: what is printed, the status and the new state. -/
def setBuiltin (W : World) (args : List Str) (s : State) : Option (Str × Status × State) :=
  if args = ["+o".toList] then some (restoring s, .success, s)
  else (parseOptions W none args s).map fun ((st, _, s), _) => ([], st, s)

/-- `set_lineedit_option` (option.c:789-798), called when the shell starts (yash.c). -/
def setLineedit (v : LineEdit) (s : State) : State :=
  let s := { (s.set .vi false).set .emacs false with lineedit := v }
  match v with
  | .vi => s.set .vi true
  | .emacs => s.set .emacs true
  | .noLineEdit => s

end Yash.Shopt
