import Verif.Script.Model
import Verif.Restore.Exec
/-! # Scripts of lines that consist of literal words -/
set_option autoImplicit false

namespace Yash.Script

open Yash.Syntax Yash.Parser
open Yash.Parser.Spec
open Yash.Expand (Locale Env expandLine lineOf)
open Yash.Restore

variable {σ : Type}

/-- The state after a list of commands, given by their fields. -/
def execAll (S : Shell σ) : List (List (List Char)) → σ → Option σ
  | [], s => some s
  | c :: cs, s => (if S.active s then S.exec c s else some s).bind (execAll S cs)

/-- A line that is written with literal words. -/
structure Line (L : Locale) (words : List (List Char × List Char)) : Prop where
  literal : ∀ w ∈ words, Literal L w.1 w.2
  command : ∃ t, (words.map (·.1)).head? = some t ∧ t ∉ keywords ∧ splitAssign L [.str t] = none

theorem lineOf_ne_nil (ts : List (List Char)) : lineOf ts ≠ [] := by
  cases ts with
  | nil => simp [lineOf]
  | cons t ts => cases ts <;> simp [lineOf]

theorem run_lines (S : Shell σ) (hL : LocaleOk S.locale) (hE : ∀ s, (S.env s).locale = S.locale ∧ (S.env s).long.Ok)
    (ls : List (List (List Char × List Char))) (h : ∀ l ∈ ls, Line S.locale l) :
    ∀ (s : σ) (k : Nat), (ls.flatMap fun l => lineOf (l.map (·.1))).length < k →
      runLines S k (ls.flatMap fun l => lineOf (l.map (·.1))) s = execAll S (ls.map fun l => l.map (·.2)) s := by
  induction ls with
  | nil =>
    intro s k hk
    obtain ⟨m, rfl⟩ : ∃ m, k = m + 1 := ⟨k - 1, by simp at hk; omega⟩
    simp [runLines, execAll]
  | cons l ls ih =>
    intro s k hk
    obtain ⟨h1, t, h2, h3, h4⟩ := h l (by simp)
    rw [List.flatMap_cons, List.length_append] at hk
    have hpos := List.length_pos_iff.2 (lineOf_ne_nil (l.map (·.1)))
    obtain ⟨m, rfl⟩ : ∃ m, k = m + 1 := ⟨k - 1, by omega⟩
    rw [List.flatMap_cons, runLines, if_neg (by simp [lineOf_ne_nil]), words_line hL l h1 h2 h3 h4]
    simp only [oneCommand, Option.bind_eq_bind, Option.bind_some, List.map_cons, execAll, execList, execCommand]
    have he := expand_literals (E := S.env s) (by rw [(hE s).1]; exact hL.ok) (hE s).2 l (by rw [(hE s).1]; exact h1) s
    have hm := fun s' => ih (fun x hx => h x (by simp [hx])) s' m (by omega)
    rw [he]
    split
    · show ((S.exec (l.map (·.2)) s).bind some).bind _ = _
      cases S.exec (l.map (·.2)) s with
      | none => rfl
      | some s' => exact hm s'
    · exact hm s

/-- A script of such lines executes the commands one after another. -/
theorem run_eq (S : Shell σ) (hL : LocaleOk S.locale) (hE : ∀ s, (S.env s).locale = S.locale ∧ (S.env s).long.Ok)
    (ls : List (List (List Char × List Char))) (h : ∀ l ∈ ls, Line S.locale l) (s : σ) :
    run S (ls.flatMap fun l => lineOf (l.map (·.1))) s = execAll S (ls.map fun l => l.map (·.2)) s :=
  run_lines S hL hE ls h s _ (by omega)

/-- A name that begins with a letter is a command. -/
theorem line_name {L : Locale} (hL : LocaleOk L) {n : List Char} (hn : NameWord L n) (hk : n ∉ keywords) {words : List (List Char × List Char)}
    (h : ∀ w ∈ words, Literal L w.1 w.2) : Line L ((n, n) :: words) := by
  refine ⟨fun w hw => ?_, n, rfl, hk, hn.noSplit⟩
  rcases List.mem_cons.1 hw with rfl | hw
  · exact hn.literal hL.ok
  · exact h w hw

end Yash.Script
