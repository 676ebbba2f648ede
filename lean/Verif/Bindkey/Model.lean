import Verif.Bindkey.Commands
import Verif.Keys.Model
import Verif.Xgetopt.Spec
import Verif.Expand.Quote
/-!
# The `bindkey` built-in (lineedit/keymap.c)

The key bindings of a mode are a trie (`Verif.Trie`), as in the code. Editing commands are functions in the code; here they are identified by their
names. Error messages are left out, standard output is assumed to accept everything, and so are the help (`--help`) and the one-time initialisation: the
state is the one after it.
-/
set_option autoImplicit false

namespace Yash.Bindkey

open Yash.Expand (Locale quoteAsWord)
open Yash.Keys (ltChar)

/-! ## The built-in -/

/-- What the built-in depends on: the locale, `posixly_correct`, `iswdigit` and `malloc_wcstombs`, which fails for some strings. -/
structure Config where
  locale : Locale
  posix : Bool
  isDigit : Char → Bool
  encode : Str → Option (List Nat)

/-- `le_modes`. -/
structure State where
  keymap : Mode → Trie.Node Char Str

def State.put (s : State) (m : Mode) (t : Trie.Node Char Str) : State := ⟨fun n => if n = m then t else s.keymap n⟩

/-- `le_keymap_init` (lineedit/keymap.c:58-334): the `Set` macro, one binding after another. -/
def initialTrie (m : Mode) : Option (Trie.Node Char Str) :=
  (initialKeys m).foldlM (fun t e => Trie.set ltChar t e.1 (function e.2)) Trie.create

/-- The exit statuses 0, 1 (`Exit_FAILURE`) and 2 (`Exit_ERROR`). -/
inductive Status where
  | success | failure | error
deriving DecidableEq, Repr

/-- `bindkey_options` (lineedit/keymap.c:384-393). -/
def options : List Xgetopt.Opt :=
  [⟨'v', some "vi-insert".toList, .none, false⟩, ⟨'a', some "vi-command".toList, .none, false⟩, ⟨'e', some "emacs".toList, .none, false⟩,
   ⟨'l', some "list".toList, .none, false⟩, ⟨'-', some "help".toList, .none, false⟩]

def Config.getopt (C : Config) : Xgetopt.Config :=
  { opts := options, posixlyCorrect := C.posix, flagPosix := false, flagDigit := false, isDigit := C.isDigit }

/-- The mode letters (lineedit/keymap.c:535-543). -/
def modechar : Mode → Char
  | .viInsert => 'v'
  | .viCommand => 'a'
  | .viSearch => 'V'
  | .emacs => 'e'
  | .emacsSearch => 'E'
  | .charExpect => 'c'

/-- `print_binding_main` (lineedit/keymap.c:527-553). `none` is printing a null pointer. -/
def printBindingMain (C : Config) (m : Mode) (key : Str) (cmd : Str) : Option Str :=
  match getCommandName cmd with
  | none => none
  | some name =>
    let quoted := quoteAsWord C.locale key
    if key.head? = some '-' then some ("bindkey -".toList ++ modechar m :: (" -- ".toList ++ (quoted ++ ' ' :: (name ++ ['\n']))))
    else some ("bindkey -".toList ++ modechar m :: (' ' :: (quoted ++ ' ' :: (name ++ ['\n']))))

/-- The call of `trie_foreachw` (lineedit/keymap.c:440-441). -/
def printAll (C : Config) (m : Mode) (t : Trie.Node Char Str) : Option Str :=
  (Trie.foreach (fun out key cmd => (out.bind fun o => (printBindingMain C m key cmd).map (o ++ ·), 0)) (some []) [] t).1

/-- `print_binding` (lineedit/keymap.c:513-525). -/
def printBinding (C : Config) (m : Mode) (key : Str) (s : State) : Option (Str × Status × State) :=
  match Trie.get ltChar (s.keymap m) key with
  | none => none
  | some r =>
    match r.exact with
    | some cmd => if r.matchlength = key.length then (printBindingMain C m key cmd).map fun out => (out, .success, s) else some ([], .failure, s)
    | none => some ([], .failure, s)

/-- `set_key_binding` (lineedit/keymap.c:461-495). -/
def setKeyBinding (C : Config) (m : Mode) (key name : Str) (s : State) : Option (Str × Status × State) :=
  if key.isEmpty then some ([], .failure, s)
  else if name = ['-'] then (Trie.remove ltChar (s.keymap m) key).map fun t => ([], .success, s.put m t)
  else
    match C.encode name with
    | none => some ([], .failure, s)
    | some mbs =>
      match getCommandFromName mbs with
      | some cmd => (Trie.set ltChar (s.keymap m) key cmd).map fun t => ([], .success, s.put m t)
      | none => some ([], .failure, s)

/-- `print_all_commands` (lineedit/keymap.c:450-456). -/
def printAllCommands : Str := commands.flatMap fun e => e.1 ++ ['\n']

/-- The mode that the options select (lineedit/keymap.c:403-422): the last one counts. -/
def selected (rs : List Xgetopt.Report) : Option Mode :=
  rs.foldl (fun m r => if r.1.short = 'a' then some .viCommand else if r.1.short = 'e' then some .emacs else if r.1.short = 'v' then some .viInsert else m) none

/-- `bindkey_builtin` (lineedit/keymap.c:400-448): what is printed, the exit status and the new bindings. `none` is undefined behaviour, or the help. -/
def bindkeyBuiltin (C : Config) (args : List Str) (s : State) : Option (Str × Status × State) :=
  let r := Xgetopt.Spec.parse C.getopt none args
  if r.reports.any fun o => o.1.short == '-' then none
  else
    match r.final with
    | .error _ => some ([], .error, s)
    | .done =>
      if r.reports.any fun o => o.1.short == 'l' then
        if r.operands.length > 0 then some ([], .error, s)
        else if (selected r.reports).isSome then some ([], .error, s)
        else some (printAllCommands, .success, s)
      else
        match selected r.reports with
        | none => some ([], .error, s)
        | some m =>
          match r.operands with
          | [] => (printAll C m (s.keymap m)).map fun out => (out, .success, s)
          | [key] => printBinding C m key s
          | [key, name] => setKeyBinding C m key name s
          | _ => some ([], .error, s)

end Yash.Bindkey
