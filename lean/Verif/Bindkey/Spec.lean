import Verif.Bindkey.Model
import Verif.Script.Model
/-!
# Specification of key bindings

A mode maps key sequences to editing commands.
-/
set_option autoImplicit false

namespace Yash.Bindkey.Spec

open Yash.Expand (Locale Env)
open Yash.Keys (ltChar)

/-- The command that is executed when exactly the key sequence has been typed: this is how the editor looks it up (C81). -/
def bound (s : State) (m : Mode) (key : Str) : Option Str :=
  match Trie.get ltChar (s.keymap m) key with
  | some r => if r.matchlength = key.length then r.exact else none
  | none => none

/-- `name` is a name for the editing command: it is written with hyphens where the function in the code has underscores. -/
def Names (name : Str) (command : Str) : Prop :=
  ∃ identifier ∈ identifiers, name = identifier.map (fun c => if c = '_' then '-' else c) ∧
    command = if identifier = "vi_delete_to_eol".toList then "forward_kill_line".toList else identifier

/-- The encoding of the locale: an ASCII string is encoded by its own bytes, and nothing else is encoded by them. -/
def EncodesAscii (encode : Str → Option (List Nat)) : Prop :=
  ∀ a : Str, (∀ c ∈ a, c.toNat < 128) → ∀ s, encode s = some (a.map Char.toNat) ↔ s = a

/-- The options that select a mode, and the modes that can be selected. -/
inductive Selects : Str → Mode → Prop
  | v : Selects "-v".toList .viInsert
  | a : Selects "-a".toList .viCommand
  | e : Selects "-e".toList .emacs
  | viInsert : Selects "--vi-insert".toList .viInsert
  | viCommand : Selects "--vi-command".toList .viCommand
  | emacs : Selects "--emacs".toList .emacs

/-- The arguments give the operands for a mode. After `--` operands may begin with a hyphen. -/
inductive Usage : List Str → Mode → List Str → Prop
  | plain {opt : Str} {m : Mode} {operands : List Str} : Selects opt m → (∀ o ∈ operands, o.head? = some '-' → o = ['-']) → Usage (opt :: operands) m operands
  | separated {opt : Str} {m : Mode} {operands : List Str} : Selects opt m → Usage (opt :: "--".toList :: operands) m operands

/-- The states after any number of invocations of the built-in, with whatever arguments and in whatever locale. -/
inductive Reachable : State → Prop
  | initial {s : State} : (∀ m, initialTrie m = some (s.keymap m)) → Reachable s
  | step {s s' : State} {C : Config} {args : List Str} {out : Str} {st : Status} :
      Reachable s → bindkeyBuiltin C args s = some (out, st, s') → Reachable s'

/-- A shell in which the only command is `bindkey`; if it fails, nothing is said about the rest. -/
def shell (C : Config) (env : State → Env State) : Script.Shell State where
  locale := C.locale
  env := env
  active := fun _ => true
  exec := fun fields s =>
    match fields with
    | [] => none
    | name :: args =>
      if name = "bindkey".toList then
        match bindkeyBuiltin C args s with
        | some (_, .success, s') => some s'
        | _ => none
      else none

end Yash.Bindkey.Spec
