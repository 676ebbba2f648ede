import Verif.Source.Model
/-!
# The built-in `eval` and iterative execution (exec.c)

What a command does to the state of the shell is a parameter.
-/
set_option autoImplicit false

namespace Yash.Source

variable {α : Type}

/-- `exec_wcs` (`none` if the shell exits in the command), and `is_interrupted` (sig.c:1047). -/
structure Exec (α : Type) where
  run : Str → State α → Option (State α)
  interrupted : State α → Bool

/-- The loop of `exec_iteration` (exec.c:1700-1718); `save` is `savelaststatus` and `status` is `commandstatus`. -/
def iterLoop (X : Exec α) (save : Int) : List Str → Int → State α → Option (Int × State α)
  | [], status, s => some (status, s)
  | command :: commands, _, s =>
    match X.run command s with
    | none => none
    | some s =>
      let status := s.laststatus
      let s := { s with laststatus := save }
      match s.exc with
      | .breakIteration => some (status, { s with exc := .none })
      | .cont => some (status, s)
      | .ret => some (status, s)
      | .contIteration =>
        let s := { s with exc := .none }
        if s.execstate.breakloopnest < s.execstate.loopnest || X.interrupted s then some (status, s) else iterLoop X save commands status s
      | .none =>
        if s.execstate.breakloopnest < s.execstate.loopnest || X.interrupted s then some (status, s) else iterLoop X save commands status s

/-- `exec_iteration` (exec.c:1694-1722). -/
def execIteration (X : Exec α) (commands : List Str) (s : State α) : Option (Int × State α) :=
  let savelaststatus := s.laststatus
  let saveiterating := s.execstate.iterating
  let s := { s with execstate := { s.execstate with iterating := true } }
  match iterLoop X savelaststatus commands 0 s with
  | none => none
  | some (status, s) => some (status, { s with execstate := { s.execstate with iterating := saveiterating } })

/-- `joinwcsarray` with a space (strbuf.c:611-638), whose memory is in `Buf.joinwcsarray`. -/
def joinSpace : List Str → Str
  | [] => []
  | [w] => w
  | w :: ws => w ++ ' ' :: joinSpace ws

/-- The result of `eval`: it returns with a status, or the shell exits, with a status or in a command. -/
inductive EvalResult (α : Type) where
  | stay (s : State α) (status : Int)
  | exit (status : Int)
  | exitIn
  | help
  deriving DecidableEq

/-- `eval_builtin` (exec.c:2010-2038). -/
def evalBuiltin (E : Env α) (X : Exec α) (args : List Str) (s : State α) : EvalResult α :=
  let r := Xgetopt.Spec.parse (E.getopt Leave.iterOptions) none args
  if r.reports.any fun o => o.1.short == '-' then .help
  else
    match r.final with
    | .error _ => if E.posix && E.special && !E.interactive then .exit 2 else .stay s 2
    | .done =>
      if r.reports.any fun o => o.1.short == 'i' then
        match execIteration X r.operands s with
        | none => .exitIn
        | some (status, s) => .stay s status
      else
        match X.run (joinSpace r.operands) s with
        | none => .exitIn
        | some s => .stay s s.laststatus

end Yash.Source
