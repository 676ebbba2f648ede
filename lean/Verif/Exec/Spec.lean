import Verif.Exec.Base
/-!
# What executing a command means

A big-step semantics without global flags: `break`, `continue` and `return` are outcomes that pass through the commands around
them, and whether failures end the shell is a matter of the context in which a command stands.  The shell process never ends
but for `exit` and fatal errors: that the last command of a process may be executed without another process is not part of it.
-/
set_option autoImplicit false

namespace Yash.Exec.Spec
open Yash.Syntax

/-- How a command ends that does not end the shell: normally, by leaving this many loops, by going on with the next round of
the loop at this distance, or by leaving the function or script. -/
inductive Sig where
  | normal
  | brk (n : Nat)
  | cont (n : Nat)
  | ret
deriving DecidableEq, Repr

/-- The outcome of a command: the end of the shell with what it leaves behind, or else a status and a state. -/
inductive Out (σ ω : Type) where
  | done (sig : Sig) (st : Nat) (s : σ)
  | exit (st : Nat) (w : ω)

/-- Where a command stands: in how many loops of the current function, whether its failure is examined by what is around it
(which makes `errexit` and `errreturn` ignore it), and whether there is nothing to return from. -/
structure Ctx where
  loops : Nat := 0
  ignoreExit : Bool := false
  ignoreReturn : Bool := false
  noReturn : Bool := false

/-- In a condition, in a negated pipeline, or before `&&` or `||`. -/
def Ctx.examined (c : Ctx) : Ctx := { c with ignoreExit := true, ignoreReturn := true }

/-- In a loop. -/
def Ctx.inLoop (c : Ctx) : Ctx := { c with loops := c.loops + 1 }

/-- In a function, script or subshell: the loops outside are out of reach, and there is something to return from. -/
def Ctx.fresh (c : Ctx) : Ctx := { c with loops := 0, ignoreReturn := false, noReturn := false }

variable {σ ω ρ ι : Type} (E : Shell σ ω ρ ι)

/-- What is seen of a process with this outcome when it has ended. -/
def Out.finish : Out σ ω → Nat × ω
  | .done _ st s => (st % 256, E.final s)
  | .exit st w => (st % 256, w)

/-- The command ends and execution goes on behind it. -/
def Out.goesOn : Out σ ω → Prop
  | .done .normal _ _ => True
  | _ => False

/-- The outcome when the state is changed afterwards. -/
def Out.after (f : Nat → σ → σ) : Out σ ω → Out σ ω
  | .done sig st s => .done sig st (f st s)
  | .exit st w => .exit st w

/-- A status after a command that `errexit` and `errreturn` are about. -/
def checked (c : Ctx) (sig : Sig) (st : Nat) (s : σ) : Out σ ω :=
  if st ≠ 0 ∧ E.errexit s = true ∧ c.ignoreExit = false then .exit st (E.final s)
  else if st ≠ 0 ∧ E.errreturn s = true ∧ c.ignoreReturn = false ∧ c.noReturn = false then .done .ret st s
  else .done sig st s

/-- The same for an outcome. -/
def Out.checked (c : Ctx) : Out σ ω → Out σ ω
  | .done sig st s => Spec.checked E c sig st s
  | .exit st w => .exit st w

/-- The commands whose failure `errexit` and `errreturn` are about.  Compound commands are not among them, as the commands in
them are. -/
def isBasic : Command → Prop
  | .simple .. | .subshell .. | .bracket .. | .funcdef .. => True
  | _ => False

/-- The redirections of a command. -/
def redirections : Command → List Redir
  | .simple r _ _ | .group r _ | .subshell r _ | .ifs r _ | .fors r _ _ _ | .whiles r _ _ _ | .cases r _ _ | .bracket r _
  | .funcdef r _ _ => r

/-- An error that ends the shell unless it is interactive. -/
def shellError (s : σ) : Out σ ω := if E.interactive s = true then .done .normal 2 s else .exit 2 (E.final s)

/-- The status of a pipeline of more than one command: that of the last command, or with the `pipefail` option that of the
last command that failed. -/
inductive PipelineStatus (pipefail : Bool) : List Nat → Nat → Prop
  | last (l : List Nat) (x : Nat) : pipefail = false → PipelineStatus pipefail (l ++ [x]) x
  | failed (l m : List Nat) (x : Nat) : pipefail = true → x ≠ 0 → (∀ y ∈ m, y = 0) → PipelineStatus pipefail (l ++ x :: m) x
  | succeeded (l : List Nat) : pipefail = true → (∀ y ∈ l, y = 0) → PipelineStatus pipefail l 0

/-- Going through patterns in order: there is an error, a match, or neither. -/
inductive Matches (w : Str) (st : Nat) : List Word → σ → σ → Option Bool → Prop
  | nil (s : σ) : Matches w st [] s s (some false)
  | error (p : Word) (ps : List Word) (s s' : σ) : E.matchOne w p st s = (s', none) → Matches w st (p :: ps) s s' none
  | found (p : Word) (ps : List Word) (s s' : σ) :
    E.matchOne w p st s = (s', some true) → Matches w st (p :: ps) s s' (some true)
  | next (p : Word) (ps : List Word) (s s' s'' : σ) (r : Option Bool) :
    E.matchOne w p st s = (s', some false) → Matches w st ps s' s'' r → Matches w st (p :: ps) s s'' r

/-- Going through the items of a `case` command in order: there is an error (`none`), no match (`some none`), or the commands
of the first item with a matching pattern. -/
inductive Selects (w : Str) (st : Nat) : List CaseItem → σ → σ → Option (Option (List AndOr)) → Prop
  | nil (s : σ) : Selects w st [] s s (some none)
  | error (ps : List Word) (b : List AndOr) (items : List CaseItem) (s s' : σ) :
    Matches E w st ps s s' none → Selects w st (.mk ps b :: items) s s' none
  | found (ps : List Word) (b : List AndOr) (items : List CaseItem) (s s' : σ) :
    Matches E w st ps s s' (some true) → Selects w st (.mk ps b :: items) s s' (some (some b))
  | next (ps : List Word) (b : List AndOr) (items : List CaseItem) (s s' s'' : σ) (r : Option (Option (List AndOr))) :
    Matches E w st ps s s' (some false) → Selects w st items s' s'' r → Selects w st (.mk ps b :: items) s s'' r

/-- A name that was not found: with a slash it is a pathname. -/
def missing (name : Str) : Kind := if '/' ∈ name then .external name else .none

/-- What a command name stands for, given what it was found to be among the built-ins and functions; nothing if the handler of
unknown commands has been executed. -/
inductive Resolves (name : Str) (argv : List Str) (st : Nat) (s : σ) : Kind → Nat → σ → Option Kind → Prop
  | found (k : Kind) : k ≠ .none → Resolves name argv st s k st s (some k)
  | program (k : Kind) : E.lookupProgram name s = k → k ≠ .none → Resolves name argv st s .none st s (some k)
  | posix : E.lookupProgram name s = .none → E.posix s = true → Resolves name argv st s .none st s (some (missing name))
  | handled (s' : σ) (st' : Nat) : E.lookupProgram name s = .none → E.posix s = false →
    E.notFound argv st s = (s', some st') → Resolves name argv st s .none st' s' none
  | unhandled (s' : σ) : E.lookupProgram name s = .none → E.posix s = false →
    E.notFound argv st s = (s', none) → Resolves name argv st s .none st s' (some (missing name))

/-- Closes the temporary environment, if there is one. -/
def closeTemp (temp : Prop) [Decidable temp] (s : σ) : σ := if temp then E.closeEnv s else s

/-- After a simple command: the environment is closed and the redirections are undone, except for those of a successful `exec`
built-in. -/
def restore (saved : ρ) (temp : Prop) [Decidable temp] (st : Nat) (s : σ) : σ :=
  if E.execRun s = true ∧ st = 0 then closeTemp E temp (E.resetExec (E.keep saved s))
  else E.undo saved (closeTemp E temp (E.resetExec s))

/-- The condition of `if`, `while` or `until` holds after it has been executed with this status. -/
def Holds (l : List AndOr) (st : Nat) : Prop := l = [] ∨ st = 0

/-- The outcome of a loop whose body or condition has ended like this. -/
def leave : Sig → Sig
  | .brk (n + 2) => .brk (n + 1)
  | .cont (n + 2) => .cont (n + 1)
  | .ret => .ret
  | _ => .normal

/-- The loop goes on after its body or condition has ended like this. -/
def again (sig : Sig) : Prop := sig = .normal ∨ sig = .cont 1

/-- What is executed. -/
inductive Node (ι : Type) where
  /-- and-or lists, one after the other -/
  | list (l : List AndOr)
  | item (a : AndOr)
  /-- pipelines with `&&` and `||` between them; those behind `&&` or `||` -/
  | chain (ps : List Pipeline)
  | behind (ps : List Pipeline)
  | pipeline (p : Pipeline)
  | cmds (cs : List Command)
  | command (c : Command)
  /-- a compound command without its redirections -/
  | body (c : Command)
  | ifs (cl : List IfClause)
  /-- a `for` loop with these words left -/
  | words (name : Str) (ws : List Str) (body : List AndOr)
  /-- a `while` or `until` loop whose body has last ended with this status -/
  | loop (isWhile : Bool) (cond body : List AndOr) (last : Nat)
  /-- a command that has been found -/
  | run (k : Kind) (argv : List Str)
  | call (body : Command) (args : List Str)
  /-- the rest of a script -/
  | script (inp : ι) (executed : Bool)

/-- `Sem q c x st s o`: executed in the context `c` in the state `s` after a command with the status `st`, `x` has the outcome
`o`.  `q` says what becomes of a failure status that the condition of the last clause of an `if` command leaves together with
`return`: it should be kept (`q = id`). -/
inductive Sem (q : Nat → Nat) : Ctx → Node ι → Nat → σ → Out σ ω → Prop
  -- lists
  | list_nil (c : Ctx) (st : Nat) (s : σ) : Sem q c (.list []) st s (.done .normal st s)
  | list_cons (c : Ctx) (a : AndOr) (l : List AndOr) (st st' : Nat) (s s' : σ) (o : Out σ ω) :
    Sem q c (.item a) st s (.done .normal st' s') → Sem q c (.list l) st' s' o → Sem q c (.list (a :: l)) st s o
  | list_stop (c : Ctx) (a : AndOr) (l : List AndOr) (st : Nat) (s : σ) (o : Out σ ω) :
    Sem q c (.item a) st s o → ¬ o.goesOn → Sem q c (.list (a :: l)) st s o
  | item_sync (c : Ctx) (ps : List Pipeline) (st : Nat) (s : σ) (o : Out σ ω) :
    Sem q c (.chain ps) st s o → Sem q c (.item (.mk ps false)) st s o
  | item_async (c : Ctx) (ps : List Pipeline) (st st' : Nat) (s s' : σ) :
    E.async ps st s = (s', st') → (∀ cs cond, ps ≠ [.mk cs false cond]) →
    Sem q c (.item (.mk ps true)) st s (.done .normal st' s')
  | item_async_one (c : Ctx) (x : Command) (cond : Bool) (st st' : Nat) (s s' : σ) :
    E.async [.mk [x] false cond] st s = (s', st') → ¬ isBasic x →
    Sem q c (.item (.mk [.mk [x] false cond] true)) st s (.done .normal st' s')
  | item_async_checked (c : Ctx) (cs : List Command) (cond : Bool) (st st' : Nat) (s s' : σ) :
    E.async [.mk cs false cond] st s = (s', st') → (∀ x, cs = [x] → isBasic x) →
    Sem q c (.item (.mk [.mk cs false cond] true)) st s (checked E c .normal st' s')
  -- and-or lists: the status of all pipelines but the last is examined
  | chain_nil (c : Ctx) (st : Nat) (s : σ) : Sem q c (.chain []) st s (.done .normal st s)
  | chain_last (c : Ctx) (p : Pipeline) (st : Nat) (s : σ) (o : Out σ ω) :
    Sem q c (.pipeline p) st s o → Sem q c (.chain [p]) st s o
  | chain_cons (c : Ctx) (p : Pipeline) (ps : List Pipeline) (st st' : Nat) (s s' : σ) (o : Out σ ω) :
    ps ≠ [] → Sem q c.examined (.pipeline p) st s (.done .normal st' s') → Sem q c (.behind ps) st' s' o →
    Sem q c (.chain (p :: ps)) st s o
  | chain_stop (c : Ctx) (p : Pipeline) (ps : List Pipeline) (st : Nat) (s : σ) (o : Out σ ω) :
    ps ≠ [] → Sem q c.examined (.pipeline p) st s o → ¬ o.goesOn → Sem q c (.chain (p :: ps)) st s o
  | behind_nil (c : Ctx) (st : Nat) (s : σ) : Sem q c (.behind []) st s (.done .normal st s)
  | and_run (c : Ctx) (cs : List Command) (neg : Bool) (ps : List Pipeline) (s : σ) (o : Out σ ω) :
    Sem q c (.chain (.mk cs neg true :: ps)) 0 s o → Sem q c (.behind (.mk cs neg true :: ps)) 0 s o
  | and_skip (c : Ctx) (cs : List Command) (neg : Bool) (ps : List Pipeline) (st : Nat) (s : σ) (o : Out σ ω) :
    st ≠ 0 → Sem q c (.behind ps) st s o → Sem q c (.behind (.mk cs neg true :: ps)) st s o
  | or_run (c : Ctx) (cs : List Command) (neg : Bool) (ps : List Pipeline) (st : Nat) (s : σ) (o : Out σ ω) :
    st ≠ 0 → Sem q c (.chain (.mk cs neg false :: ps)) st s o → Sem q c (.behind (.mk cs neg false :: ps)) st s o
  | or_skip (c : Ctx) (cs : List Command) (neg : Bool) (ps : List Pipeline) (s : σ) (o : Out σ ω) :
    Sem q c (.behind ps) 0 s o → Sem q c (.behind (.mk cs neg false :: ps)) 0 s o
  -- pipelines
  | pipeline (c : Ctx) (cs : List Command) (cond : Bool) (st : Nat) (s : σ) (o : Out σ ω) :
    Sem q c (.cmds cs) st s o → Sem q c (.pipeline (.mk cs false cond)) st s o
  | negated (c : Ctx) (cs : List Command) (cond : Bool) (st st' : Nat) (s s' : σ) :
    Sem q c.examined (.cmds cs) st s (.done .normal st' s') →
    Sem q c (.pipeline (.mk cs true cond)) st s (.done .normal (if st' = 0 then 1 else 0) s')
  | negated_stop (c : Ctx) (cs : List Command) (cond : Bool) (st : Nat) (s : σ) (o : Out σ ω) :
    Sem q c.examined (.cmds cs) st s o → ¬ o.goesOn → Sem q c (.pipeline (.mk cs true cond)) st s o
  | cmds_basic (c : Ctx) (x : Command) (st : Nat) (s : σ) (o : Out σ ω) :
    isBasic x → Sem q c (.command x) st s o → Sem q c (.cmds [x]) st s (o.checked E c)
  | cmds_compound (c : Ctx) (x : Command) (st : Nat) (s : σ) (o : Out σ ω) :
    ¬ isBasic x → Sem q c (.command x) st s o → Sem q c (.cmds [x]) st s o
  | cmds_many (c : Ctx) (cs : List Command) (st st' : Nat) (s : σ) (os : List (Out σ ω)) (hl : os.length = cs.length) :
    2 ≤ cs.length →
    (∀ i (h : i < cs.length), Sem q c.fresh (.command cs[i]) st (E.enterPipe cs i s) (os[i]'(hl ▸ h))) →
    PipelineStatus (E.pipefail s) (os.map fun o => (o.finish E).1) st' →
    Sem q c (.cmds cs) st s (checked E c .normal st' (E.join s (E.pipeWorld s (os.map fun o => (o.finish E).2))))
  -- compound commands
  | compound (c : Ctx) (x : Command) (st : Nat) (s s' : σ) (saved : ρ) (o : Out σ ω) :
    (∀ r a w, x ≠ .simple r a w) → E.redirect (redirections x) st s = (s', saved, true) → Sem q c (.body x) st s' o →
    Sem q c (.command x) st s (o.after fun _ => E.undo saved)
  | compound_redir (c : Ctx) (x : Command) (st : Nat) (s s' : σ) (saved : ρ) :
    (∀ r a w, x ≠ .simple r a w) → E.redirect (redirections x) st s = (s', saved, false) →
    Sem q c (.command x) st s (checked E c .normal 2 (E.undo saved s'))
  | group (c : Ctx) (r : List Redir) (l : List AndOr) (st : Nat) (s : σ) (o : Out σ ω) :
    Sem q c (.list l) st s o → Sem q c (.body (.group r l)) st s o
  | subshell (c : Ctx) (r : List Redir) (l : List AndOr) (st : Nat) (s : σ) (o : Out σ ω) :
    Sem q c.fresh (.list l) st (E.enter s) o →
    Sem q c (.body (.subshell r l)) st s (.done .normal (o.finish E).1 (E.join s (o.finish E).2))
  | bracket (c : Ctx) (r : List Redir) (e : DbExp) (st st' : Nat) (s s' : σ) :
    E.bracket e st s = (s', st') → Sem q c (.body (.bracket r e)) st s (.done .normal st' s')
  | funcdef (c : Ctx) (r : List Redir) (n : Word) (x : Command) (st : Nat) (s s' s'' : σ) (name : Str) (ok : Bool) :
    E.expandOne n st s = (s', some name) → E.define name x s' = (s'', ok) →
    Sem q c (.body (.funcdef r n x)) st s (.done .normal (if ok then 0 else 2) s'')
  | funcdef_error (c : Ctx) (r : List Redir) (n : Word) (x : Command) (st : Nat) (s s' : σ) :
    E.expandOne n st s = (s', none) → Sem q c (.body (.funcdef r n x)) st s (.done .normal 2 s')
  -- if
  | if_ (c : Ctx) (r : List Redir) (cl : List IfClause) (st : Nat) (s : σ) (o : Out σ ω) :
    Sem q c (.ifs cl) st s o → Sem q c (.body (.ifs r cl)) st s o
  | ifs_nil (c : Ctx) (st : Nat) (s : σ) : Sem q c (.ifs []) st s (.done .normal 0 s)
  | ifs_else (c : Ctx) (l : List AndOr) (cl : List IfClause) (st : Nat) (s : σ) (o : Out σ ω) :
    Sem q c (.list l) st s o → Sem q c (.ifs (.els l :: cl)) st s o
  | ifs_then (c : Ctx) (i l : List AndOr) (cl : List IfClause) (st st' : Nat) (s s' : σ) (o : Out σ ω) :
    Sem q c.examined (.list i) st s (.done .normal st' s') → Holds i st' → Sem q c (.list l) st' s' o →
    Sem q c (.ifs (.cond i l :: cl)) st s o
  | ifs_next (c : Ctx) (i l : List AndOr) (cl : List IfClause) (st st' : Nat) (s s' : σ) (o : Out σ ω) :
    Sem q c.examined (.list i) st s (.done .normal st' s') → ¬ Holds i st' → Sem q c (.ifs cl) st' s' o →
    Sem q c (.ifs (.cond i l :: cl)) st s o
  | ifs_signal (c : Ctx) (i l : List AndOr) (cl : List IfClause) (sig : Sig) (st st' : Nat) (s s' : σ) :
    Sem q c.examined (.list i) st s (.done sig st' s') → sig ≠ .normal →
    Sem q c (.ifs (.cond i l :: cl)) st s (.done sig (if st' ≠ 0 ∧ cl = [] then q st' else st') s')
  | ifs_exit (c : Ctx) (i l : List AndOr) (cl : List IfClause) (st st' : Nat) (s : σ) (w : ω) :
    Sem q c.examined (.list i) st s (.exit st' w) → Sem q c (.ifs (.cond i l :: cl)) st s (.exit st' w)
  -- for
  | for_error (c : Ctx) (r : List Redir) (n : Str) (ws : List Word) (l : List AndOr) (st : Nat) (s s' : σ) :
    E.expandLine ws st s = (s', none) → Sem q c (.body (.fors r n (some ws) l)) st s (checked E c .normal 2 s')
  | for_words (c : Ctx) (r : List Redir) (n : Str) (ws : List Word) (l : List AndOr) (st : Nat) (s s' : σ) (vs : List Str)
      (o : Out σ ω) :
    E.expandLine ws st s = (s', some vs) → vs ≠ [] → Sem q c (.words n vs l) st s' o →
    Sem q c (.body (.fors r n (some ws) l)) st s o
  | for_none (c : Ctx) (r : List Redir) (n : Str) (ws : List Word) (l : List AndOr) (st : Nat) (s s' : σ) :
    E.expandLine ws st s = (s', some []) →
    Sem q c (.body (.fors r n (some ws) l)) st s (.done .normal (if l = [] then st else 0) s')
  | for_positional (c : Ctx) (r : List Redir) (n : Str) (l : List AndOr) (st : Nat) (s : σ) (o : Out σ ω) :
    E.positional s ≠ [] → Sem q c (.words n (E.positional s) l) st s o → Sem q c (.body (.fors r n none l)) st s o
  | for_no_positional (c : Ctx) (r : List Redir) (n : Str) (l : List AndOr) (st : Nat) (s : σ) :
    E.positional s = [] → Sem q c (.body (.fors r n none l)) st s (.done .normal (if l = [] then st else 0) s)
  | words_nil (c : Ctx) (n : Str) (l : List AndOr) (st : Nat) (s : σ) : Sem q c (.words n [] l) st s (.done .normal st s)
  | words_error (c : Ctx) (n v : Str) (vs : List Str) (l : List AndOr) (st : Nat) (s s' : σ) :
    E.setVar n v s = (s', false) → E.interactive s' = true →
    Sem q c (.words n (v :: vs) l) st s (checked E c .normal 2 s')
  | words_fatal (c : Ctx) (n v : Str) (vs : List Str) (l : List AndOr) (st : Nat) (s s' : σ) :
    E.setVar n v s = (s', false) → E.interactive s' = false → Sem q c (.words n (v :: vs) l) st s (.exit 2 (E.final s'))
  | words_again (c : Ctx) (n v : Str) (vs : List Str) (l : List AndOr) (sig : Sig) (st st' : Nat) (s s' s'' : σ)
      (o : Out σ ω) :
    E.setVar n v s = (s', true) → Sem q c.inLoop (.list l) st s' (.done sig st' s'') → again sig →
    Sem q c (.words n vs l) st' s'' o → Sem q c (.words n (v :: vs) l) st s o
  | words_leave (c : Ctx) (n v : Str) (vs : List Str) (l : List AndOr) (sig : Sig) (st st' : Nat) (s s' s'' : σ) :
    E.setVar n v s = (s', true) → Sem q c.inLoop (.list l) st s' (.done sig st' s'') → ¬ again sig →
    Sem q c (.words n (v :: vs) l) st s (.done (leave sig) st' s'')
  | words_exit (c : Ctx) (n v : Str) (vs : List Str) (l : List AndOr) (st st' : Nat) (s s' : σ) (w : ω) :
    E.setVar n v s = (s', true) → Sem q c.inLoop (.list l) st s' (.exit st' w) →
    Sem q c (.words n (v :: vs) l) st s (.exit st' w)
  -- while and until
  | while_ (c : Ctx) (r : List Redir) (isWhile : Bool) (i l : List AndOr) (st : Nat) (s : σ) (o : Out σ ω) :
    Sem q c (.loop isWhile i l 0) st s o → Sem q c (.body (.whiles r isWhile i l)) st s o
  | loop_end (c : Ctx) (isWhile : Bool) (i l : List AndOr) (last st st' : Nat) (s s' : σ) :
    Sem q c.inLoop.examined (.list i) st s (.done .normal st' s') → ¬ (Holds i st' ↔ isWhile = true) →
    Sem q c (.loop isWhile i l last) st s (.done .normal last s')
  | loop_cond_again (c : Ctx) (isWhile : Bool) (i l : List AndOr) (last st st' : Nat) (s s' : σ) (o : Out σ ω) :
    Sem q c.inLoop.examined (.list i) st s (.done (.cont 1) st' s') → Sem q c (.loop isWhile i l last) st' s' o →
    Sem q c (.loop isWhile i l last) st s o
  | loop_cond_leave (c : Ctx) (isWhile : Bool) (i l : List AndOr) (last : Nat) (sig : Sig) (st st' : Nat) (s s' : σ) :
    Sem q c.inLoop.examined (.list i) st s (.done sig st' s') → ¬ again sig →
    Sem q c (.loop isWhile i l last) st s (.done (leave sig) st' s')
  | loop_cond_exit (c : Ctx) (isWhile : Bool) (i l : List AndOr) (last : Nat) (st st' : Nat) (s : σ) (w : ω) :
    Sem q c.inLoop.examined (.list i) st s (.exit st' w) → Sem q c (.loop isWhile i l last) st s (.exit st' w)
  | loop_again (c : Ctx) (isWhile : Bool) (i l : List AndOr) (last : Nat) (sig : Sig) (st st' st'' : Nat) (s s' s'' : σ)
      (o : Out σ ω) :
    Sem q c.inLoop.examined (.list i) st s (.done .normal st' s') → (Holds i st' ↔ isWhile = true) →
    Sem q c.inLoop (.list l) st' s' (.done sig st'' s'') → again sig →
    Sem q c (.loop isWhile i l (if l = [] then last else st'')) st'' s'' o → Sem q c (.loop isWhile i l last) st s o
  | loop_leave (c : Ctx) (isWhile : Bool) (i l : List AndOr) (last : Nat) (sig : Sig) (st st' st'' : Nat) (s s' s'' : σ) :
    Sem q c.inLoop.examined (.list i) st s (.done .normal st' s') → (Holds i st' ↔ isWhile = true) →
    Sem q c.inLoop (.list l) st' s' (.done sig st'' s'') → ¬ again sig →
    Sem q c (.loop isWhile i l last) st s (.done (leave sig) st'' s'')
  | loop_exit (c : Ctx) (isWhile : Bool) (i l : List AndOr) (last : Nat) (st st' st'' : Nat) (s s' : σ) (w : ω) :
    Sem q c.inLoop.examined (.list i) st s (.done .normal st' s') → (Holds i st' ↔ isWhile = true) →
    Sem q c.inLoop (.list l) st' s' (.exit st'' w) → Sem q c (.loop isWhile i l last) st s (.exit st'' w)
  -- case
  | case_word_error (c : Ctx) (r : List Redir) (w : Word) (items : List CaseItem) (st : Nat) (s s' : σ) :
    E.expandOne w st s = (s', none) → Sem q c (.body (.cases r w items)) st s (checked E c .normal 2 s')
  | case_error (c : Ctx) (r : List Redir) (w : Word) (items : List CaseItem) (st : Nat) (s s' s'' : σ) (v : Str) :
    E.expandOne w st s = (s', some v) → Selects E v st items s' s'' none →
    Sem q c (.body (.cases r w items)) st s (checked E c .normal 2 s'')
  | case_none (c : Ctx) (r : List Redir) (w : Word) (items : List CaseItem) (st : Nat) (s s' s'' : σ) (v : Str) :
    E.expandOne w st s = (s', some v) → Selects E v st items s' s'' (some none) →
    Sem q c (.body (.cases r w items)) st s (.done .normal 0 s'')
  | case_empty (c : Ctx) (r : List Redir) (w : Word) (items : List CaseItem) (st : Nat) (s s' s'' : σ) (v : Str) :
    E.expandOne w st s = (s', some v) → Selects E v st items s' s'' (some (some [])) →
    Sem q c (.body (.cases r w items)) st s (.done .normal 0 s'')
  | case_item (c : Ctx) (r : List Redir) (w : Word) (items : List CaseItem) (st : Nat) (s s' s'' : σ) (v : Str)
      (l : List AndOr) (o : Out σ ω) :
    E.expandOne w st s = (s', some v) → Selects E v st items s' s'' (some (some l)) → l ≠ [] → Sem q c (.list l) st s'' o →
    Sem q c (.body (.cases r w items)) st s o
  -- simple commands
  | words_fail (c : Ctx) (r : List Redir) (a : List Assign) (w : List Word) (st : Nat) (s s' : σ) :
    E.expandLine w st (E.resetSubst s) = (s', none) → Sem q c (.command (.simple r a w)) st s (.done .normal 2 s')
  | bare_error (c : Ctx) (r : List Redir) (a : List Assign) (w : List Word) (st : Nat) (s s' s'' : σ) :
    E.expandLine w st (E.resetSubst s) = (s', some []) → E.assign a false false st s' = (s'', false) →
    Sem q c (.command (.simple r a w)) st s (shellError E s'')
  | bare (c : Ctx) (a : List Assign) (w : List Word) (st : Nat) (s s' s'' : σ) :
    E.expandLine w st (E.resetSubst s) = (s', some []) → E.assign a false false st s' = (s'', true) →
    Sem q c (.command (.simple [] a w)) st s (.done .normal (E.substStatus s'') s'')
  | bare_redir (c : Ctx) (r : List Redir) (a : List Assign) (w : List Word) (st : Nat) (s s' s'' t : σ) (saved : ρ)
      (ok : Bool) :
    E.expandLine w st (E.resetSubst s) = (s', some []) → E.assign a false false st s' = (s'', true) → r ≠ [] →
    E.redirect r st (E.enter s'') = (t, saved, ok) →
    Sem q c (.command (.simple r a w)) st s
      (.done .normal ((if ok then E.substStatus (E.undo saved t) else 2) % 256) (E.join s'' (E.final (E.undo saved t))))
  | redir_error (c : Ctx) (r : List Redir) (a : List Assign) (w : List Word) (st : Nat) (s s' s'' : σ) (name : Str)
      (args : List Str) (saved : ρ) :
    E.expandLine w st (E.resetSubst s) = (s', some (name :: args)) → E.redirect r st s' = (s'', saved, false) →
    ¬ (E.posix s'' = true ∧ E.interactive s'' = false ∧ E.isSpecial name = true) →
    Sem q c (.command (.simple r a w)) st s (.done .normal 2 (E.undo saved s''))
  | redir_fatal (c : Ctx) (r : List Redir) (a : List Assign) (w : List Word) (st : Nat) (s s' s'' : σ) (name : Str)
      (args : List Str) (saved : ρ) :
    E.expandLine w st (E.resetSubst s) = (s', some (name :: args)) → E.redirect r st s' = (s'', saved, false) →
    E.posix s'' = true → E.interactive s'' = false → E.isSpecial name = true →
    Sem q c (.command (.simple r a w)) st s (.exit 2 (E.final (E.undo saved s'')))
  | assign_error (c : Ctx) (r : List Redir) (a : List Assign) (w : List Word) (st : Nat) (s s' s'' t : σ) (name : Str)
      (args : List Str) (saved : ρ) (temp : Bool) :
    E.expandLine w st (E.resetSubst s) = (s', some (name :: args)) → E.redirect r st s' = (s'', saved, true) →
    (temp = true ↔ a ≠ [] ∧ E.lookup name s'' ≠ .special) →
    E.assign a temp true st (if temp then E.openTemp s'' else s'') = (t, false) → E.interactive t = true →
    Sem q c (.command (.simple r a w)) st s (.done .normal 2 (E.undo saved (closeTemp E (temp = true) t)))
  | assign_fatal (c : Ctx) (r : List Redir) (a : List Assign) (w : List Word) (st : Nat) (s s' s'' t : σ) (name : Str)
      (args : List Str) (saved : ρ) (temp : Bool) :
    E.expandLine w st (E.resetSubst s) = (s', some (name :: args)) → E.redirect r st s' = (s'', saved, true) →
    (temp = true ↔ a ≠ [] ∧ E.lookup name s'' ≠ .special) →
    E.assign a temp true st (if temp then E.openTemp s'' else s'') = (t, false) → E.interactive t = false →
    Sem q c (.command (.simple r a w)) st s (.exit 2 (E.final (E.undo saved (closeTemp E (temp = true) t))))
  | handled (c : Ctx) (r : List Redir) (a : List Assign) (w : List Word) (st st' : Nat) (s s' s'' t u : σ) (name : Str)
      (args : List Str) (saved : ρ) (temp : Bool) :
    E.expandLine w st (E.resetSubst s) = (s', some (name :: args)) → E.redirect r st s' = (s'', saved, true) →
    (temp = true ↔ a ≠ [] ∧ E.lookup name s'' ≠ .special) →
    E.assign a temp true st (if temp then E.openTemp s'' else s'') = (t, true) →
    Resolves E name (name :: args) st t (E.lookup name s'') st' u none →
    Sem q c (.command (.simple r a w)) st s (.done .normal st' (E.undo saved (closeTemp E (temp = true) u)))
  | simple (c : Ctx) (r : List Redir) (a : List Assign) (w : List Word) (st st' : Nat) (s s' s'' t u : σ) (name : Str)
      (args : List Str) (saved : ρ) (temp : Bool) (k : Kind) (o : Out σ ω) :
    E.expandLine w st (E.resetSubst s) = (s', some (name :: args)) → E.redirect r st s' = (s'', saved, true) →
    (temp = true ↔ a ≠ [] ∧ E.lookup name s'' ≠ .special) →
    E.assign a temp true st (if temp then E.openTemp s'' else s'') = (t, true) →
    Resolves E name (name :: args) st t (E.lookup name s'') st' u (some k) →
    Sem q c (.run k (name :: args)) st' u o →
    Sem q c (.command (.simple r a w)) st s (o.after (restore E saved (temp = true)))
  -- commands that have been found
  | run_none (c : Ctx) (argv : List Str) (st : Nat) (s : σ) : Sem q c (.run .none argv) st s (.done .normal 127 s)
  | run_external (c : Ctx) (path : Str) (argv : List Str) (st st' : Nat) (s : σ) (w : ω) :
    E.external path argv s = (st', w) → Sem q c (.run (.external path) argv) st s (.done .normal st' (E.join s w))
  | run_function (c : Ctx) (x : Command) (argv : List Str) (st : Nat) (s : σ) (o : Out σ ω) :
    Sem q c (.call x argv.tail) st s o → Sem q c (.run (.function x) argv) st s o
  | call (c : Ctx) (x : Command) (args : List Str) (sig : Sig) (st st' : Nat) (s s' : σ) :
    Sem q c.fresh (.cmds [x]) st (E.openEnv args s) (.done sig st' s') →
    Sem q c (.call x args) st s (.done .normal st' (E.closeEnv s'))
  | call_exit (c : Ctx) (x : Command) (args : List Str) (st st' : Nat) (s : σ) (w : ω) :
    Sem q c.fresh (.cmds [x]) st (E.openEnv args s) (.exit st' w) → Sem q c (.call x args) st s (.exit st' w)
  -- built-ins
  | builtin (c : Ctx) (k : Kind) (argv : List Str) (st st' : Nat) (s s' : σ) :
    (k = .special ∨ k = .builtin) → E.builtin argv st s = (s', .done st') → Sem q c (.run k argv) st s (.done .normal st' s')
  | break_ (c : Ctx) (k : Kind) (argv : List Str) (n st : Nat) (s s' : σ) :
    (k = .special ∨ k = .builtin) → E.builtin argv st s = (s', .brk n) → c.loops ≠ 0 →
    Sem q c (.run k argv) st s (.done (.brk (min n c.loops)) 0 s')
  | continue_ (c : Ctx) (k : Kind) (argv : List Str) (n st : Nat) (s s' : σ) :
    (k = .special ∨ k = .builtin) → E.builtin argv st s = (s', .cont n) → c.loops ≠ 0 →
    Sem q c (.run k argv) st s (.done (.cont (min n c.loops)) 0 s')
  | no_loop (c : Ctx) (k : Kind) (argv : List Str) (act : Act ι) (n st : Nat) (s s' : σ) :
    (k = .special ∨ k = .builtin) → (act = .brk n ∨ act = .cont n) → E.builtin argv st s = (s', act) → c.loops = 0 →
    Sem q c (.run k argv) st s (if E.fatal s' then .exit 2 (E.final s') else .done .normal 2 s')
  | return_ (c : Ctx) (k : Kind) (argv : List Str) (st st' : Nat) (s s' : σ) :
    (k = .special ∨ k = .builtin) → E.builtin argv st s = (s', .ret st') → ¬ (c.noReturn = true ∧ E.interactive s' = true) →
    Sem q c (.run k argv) st s (.done .ret st' s')
  | return_error (c : Ctx) (k : Kind) (argv : List Str) (st st' : Nat) (s s' : σ) :
    (k = .special ∨ k = .builtin) → E.builtin argv st s = (s', .ret st') → c.noReturn = true → E.interactive s' = true →
    Sem q c (.run k argv) st s (.done .normal 1 s')
  | exit_ (c : Ctx) (k : Kind) (argv : List Str) (st st' : Nat) (s s' : σ) :
    (k = .special ∨ k = .builtin) → E.builtin argv st s = (s', .exit st') → Sem q c (.run k argv) st s (.exit st' (E.final s'))
  | eval (c : Ctx) (k : Kind) (argv : List Str) (code : ι) (st : Nat) (s s' : σ) (o : Out σ ω) :
    (k = .special ∨ k = .builtin) → E.builtin argv st s = (s', .eval code) → Sem q c (.script code false) st s' o →
    Sem q c (.run k argv) st s o
  | dot (c : Ctx) (k : Kind) (argv : List Str) (code : ι) (sig : Sig) (st st' : Nat) (s s' s'' : σ) :
    (k = .special ∨ k = .builtin) → E.builtin argv st s = (s', .dot code none) →
    Sem q c.fresh (.script code false) st s' (.done sig st' s'') → Sem q c (.run k argv) st s (.done .normal st' s'')
  | dot_args (c : Ctx) (k : Kind) (argv args : List Str) (code : ι) (sig : Sig) (st st' : Nat) (s s' s'' : σ) :
    (k = .special ∨ k = .builtin) → E.builtin argv st s = (s', .dot code (some args)) →
    Sem q c.fresh (.script code false) st (E.openEnv args s') (.done sig st' s'') →
    Sem q c (.run k argv) st s (.done .normal st' (E.closeEnv s''))
  | dot_exit (c : Ctx) (k : Kind) (argv : List Str) (args : Option (List Str)) (code : ι) (st st' : Nat) (s s' : σ) (w : ω) :
    (k = .special ∨ k = .builtin) → E.builtin argv st s = (s', .dot code args) →
    Sem q c.fresh (.script code false) st (match args with | some a => E.openEnv a s' | none => s') (.exit st' w) →
    Sem q c (.run k argv) st s (.exit st' w)
  | run_command (c : Ctx) (k k' : Kind) (argv argv' : List Str) (st : Nat) (s s' : σ) (o : Out σ ω) :
    (k = .special ∨ k = .builtin) → E.builtin argv st s = (s', .run k' argv') → Sem q c (.run k' argv') st s' o →
    Sem q c (.run k argv) st s o
  -- scripts: commands are read and executed in turn
  | script_blank (c : Ctx) (inp rest : ι) (atEof executed : Bool) (st : Nat) (s s' : σ) (o : Out σ ω) :
    E.parse inp s = (s', .ok [] rest atEof) → Sem q c (.script rest executed) st s' o →
    Sem q c (.script inp executed) st s o
  | script_noexec (c : Ctx) (inp rest : ι) (l : List AndOr) (atEof executed : Bool) (st : Nat) (s s' : σ) (o : Out σ ω) :
    E.parse inp s = (s', .ok l rest atEof) → l ≠ [] → E.executes s' = false → Sem q c (.script rest executed) st s' o →
    Sem q c (.script inp executed) st s o
  | script_cons (c : Ctx) (inp rest : ι) (l : List AndOr) (atEof executed : Bool) (st st' : Nat) (s s' s'' : σ)
      (o : Out σ ω) :
    E.parse inp s = (s', .ok l rest atEof) → l ≠ [] → E.executes s' = true →
    Sem q c (.list l) st s' (.done .normal st' s'') → Sem q c (.script rest true) st' s'' o →
    Sem q c (.script inp executed) st s o
  | script_stop (c : Ctx) (inp rest : ι) (l : List AndOr) (atEof executed : Bool) (st : Nat) (s s' : σ) (o : Out σ ω) :
    E.parse inp s = (s', .ok l rest atEof) → l ≠ [] → E.executes s' = true → Sem q c (.list l) st s' o → ¬ o.goesOn →
    Sem q c (.script inp executed) st s o
  | script_eof (c : Ctx) (inp : ι) (executed : Bool) (st : Nat) (s s' : σ) :
    E.parse inp s = (s', .eof) → Sem q c (.script inp executed) st s (.done .normal (if executed then st else 0) s')
  | script_syntax (c : Ctx) (inp : ι) (executed : Bool) (st : Nat) (s s' : σ) :
    E.parse inp s = (s', .syntaxError) →
    Sem q c (.script inp executed) st s (if E.syntaxErrorExits s' then .exit 258 (E.final s') else .done .normal 258 s')
  | script_input (c : Ctx) (inp : ι) (executed : Bool) (st : Nat) (s s' : σ) :
    E.parse inp s = (s', .inputError) → Sem q c (.script inp executed) st s (.done .normal 2 s')

end Yash.Exec.Spec
