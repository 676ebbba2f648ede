import Verif.Expand.Four
import Verif.Parser.Model
/-!
# Executing scripts of simple commands

The commands are read by the model of the parser (C55) and their words are expanded by the model of expansions (C43). The state `σ` is
whatever the built-ins in question change. Redirections, assignments and everything but simple commands and function definitions are not
modelled here.
-/
set_option autoImplicit false

namespace Yash.Script

open Yash.Syntax
open Yash.Expand (Locale Env expandLine expandSingle)

/-- A shell: what expansions depend on, which may be changed by commands; whether commands are executed (`shopt_exec || is_interactive`, yash.c:551); and
what the command with the fields does. `none` is an error, or something that is not modelled. -/
structure Shell (σ : Type) where
  locale : Locale
  env : σ → Env σ
  active : σ → Bool
  exec : List (List Char) → σ → Option σ
  /-- `define_function`. -/
  define : List Char → Command → σ → Option σ := fun _ _ _ => none

variable {σ : Type}

/-- A simple command without assignments and redirections (exec.c:663-683, 699-714, 740-815), or a function definition (`exec_funcdef`, exec.c:1434-1452). -/
def execCommand (S : Shell σ) : Command → σ → Option σ
  | .simple [] [] ws, s =>
    match expandLine (S.env s) ws s with
    | .ok s fs => S.exec fs s
    | _ => none
  | .funcdef [] name body, s =>
    match expandSingle (S.env s) .single .word .none name s with
    | .ok s name => S.define name body s
    | _ => none
  | _, _ => none

/-- And-or lists that consist of a single command each (`exec_and_or_lists`, exec.c:308-). -/
def execList (S : Shell σ) : List AndOr → σ → Option σ
  | [], s => some s
  | .mk [.mk [c] false false] false :: as, s => do
    let s ← execCommand S c s
    execList S as s
  | _, _ => none

/-- The lines of a script are read and executed one after another (`parse_and_exec`, yash.c:534-, without alias substitution). -/
def runLines (S : Shell σ) : Nat → List Char → σ → Option σ
  | 0, _, _ => none
  | fuel + 1, text, s =>
    if text.isEmpty then some s
    else do
      let (cs, rest) ← Parser.parseLine S.locale text
      let s ← if S.active s then execList S cs s else some s
      runLines S fuel rest s

/-- Reading and executing a whole text. -/
def run (S : Shell σ) (text : List Char) (s : σ) : Option σ := runLines S (text.length + 1) text s

end Yash.Script
