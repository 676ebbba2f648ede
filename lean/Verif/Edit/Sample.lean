import Verif.Edit.Spec
/-! # Lines on which the theorems about line editing are tried -/
set_option autoImplicit false

namespace Yash.Edit.Sample
open Spec

/-- The characters of ASCII. -/
def ascii : Chars where
  blank c := c == ' ' || c == '\t'
  punct c := 33 ≤ c.toNat && c.toNat ≤ 126 && !c.isAlphanum
  alnum c := c.isAlphanum
  lower c := c.isLower
  toUpper := Char.toUpper
  toLower := Char.toLower

/-- Two lines in the history, and no prediction. -/
def env : Env := { chars := ascii, predict := none, predictEmpty := false, hist := ["ls".toList, "cd /".toList], number := fun n => if n < 2 then some n else none }

/-- The same with a prediction. -/
def envPredict : Env := { env with predict := some fun s => if s = ['a', 'b'] then ['c', 'd'] else [] }

theorem sane : Sane ascii := by
  intro c h
  have h : c = ' ' ∨ c = '\t' := by simpa [ascii] using h
  rcases h with rfl | rfl <;> decide

theorem ok : env.Ok := ⟨sane, by
  intro n k h
  simp only [env] at h ⊢
  split at h
  · cases h; assumption
  · cases h⟩

theorem ok_predict : envPredict.Ok := ⟨sane, ok.number⟩

/-- The commands that put text back or do something again. -/
def plain : Cmd → Bool
  | .put | .putBefore | .putLeft | .putPop | .redo => false
  | _ => true

/-- The editor after commands on the first line. -/
def run (E : Env) (vi : Bool) (cs : List (Cmd × Char)) : St := (invokeAll E cs (start E vi blank)).getD blank

theorem session_all {E : Env} : ∀ (cs : List (Cmd × Char)) (st st' : St), Session E st → cs.all (fun x => plain x.1) = true →
    invokeAll E cs st = some st' → Session E st'
  | [], st, st', s, _, h => by cases h; exact s
  | (cmd, c) :: cs, st, st', s, hp, h => by
    rw [invokeAll] at h
    rw [List.all_cons, Bool.and_eq_true] at hp
    split at h
    · cases h
    · rename_i st1 h1
      refine session_all cs st1 st' (.command cmd c s ?_ h1) hp.2 h
      have := hp.1
      cases cmd <;> first | exact trivial | cases this

/-- Plain commands that do not fail lead to a state between two commands. -/
theorem session {E : Env} (ok : E.Ok) (vi : Bool) (cs : List (Cmd × Char)) (hp : cs.all (fun x => plain x.1) = true)
    (h : (invokeAll E cs (start E vi blank)).isSome = true) : Session E (run E vi cs) := by
  refine session_all cs _ _ (.first E vi ok) hp ?_
  rw [run]
  cases hx : invokeAll E cs (start E vi blank) with
  | none => rw [hx] at h; cases h
  | some st => rfl

/-- Typing. -/
def type (s : String) : List (Cmd × Char) := s.toList.map fun c => (.selfInsert, c)

/-- A command that takes no character. -/
def key (c : Cmd) : Cmd × Char := (c, '\x00')

end Yash.Edit.Sample
