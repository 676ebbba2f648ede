import Verif.Kill.Props
import Verif.TestBuiltin.Props
/-! # Examples for property C87 -/
set_option autoImplicit false

namespace Yash.Kill.Examples

open Spec
open Yash.Sig.Names (linux linux_ok)
open Yash.Sig.Names.Spec (Numeral Denotes Valid Name Forbidden)
open Yash.Job.Spec (jobAt Present Means Runs)

def upper (c : Char) : Char := if 'a' ≤ c ∧ c ≤ 'z' then Char.ofNat (c.toNat - 32) else c

def jobs : Job.State := Job.exPair.getD Job.init

theorem jobs_run : Runs Job.exOpts True Job.init jobs :=
  .andThen (.async 1 [(some 10, "sleep 1".toList)] trivial rfl) (.async 2 [(some 20, "echo a".toList), (some 21, "cat".toList)] trivial rfl)

def E : Env := ⟨upper, TestBuiltin.posixWorld, linux, 15, false, jobs, fun n => if n = 9 then some "Killed".toList else none⟩

/-- Process 7 does not exist. -/
def sys : System := fun _ c => decide (c.1 ≠ 7)

def seen (args : List String) : Option (List Call × String × Status) := (killBuiltin E sys (args.map String.toList)).map fun r => (r.calls, String.ofList r.out, r.status)

example : seen ["-s", "int", "5", "x", "%sl", "-6", "%2"] = some ([(5, 2), (-10, 2), (-6, 2), (-20, 2)], "", .failure) := by decide +kernel
example : seen ["-9", "--", "-5"] = some ([(-5, 9)], "", .success) := by decide +kernel
example : seen ["5", "7", "8"] = some ([(5, 15), (7, 15), (8, 15)], "", .failure) := by decide +kernel
example : seen ["-n0", "5"] = some ([(5, 0)], "", .success) := by decide +kernel
example : seen ["-EXIT", "5"] = some ([], "", .failure) := by decide +kernel
example : seen ["-lv", "9", "393", "kill", "200"] = some ([], "9\tKILL       Killed\n9\tKILL       Killed\n9\tKILL       Killed\n", .failure) := by decide +kernel
/-- Lower-case names may be understood as the option `-s`. -/
example : seen ["-segv", "5"] = some ([], "", .failure) := by decide +kernel
/-- All processes get the signal. -/
example : seen ["4294967295"] = some ([(-1, 15)], "", .success) := by decide +kernel

theorem usage : Usage ["-s".toList, "int".toList, "5".toList, "%sl".toList] (some "int".toList) ["5".toList, "%sl".toList] :=
  .given (first := ["-s".toList, "int".toList]) (.separate (.inl rfl)) (.operands (by decide))

theorem five : Numeral "5".toList 5 := .digit 5 (by omega)

theorem signal : Signal E "int".toList 2 :=
  .signal (.plain "INT".toList 2 (.table _ _ (by simp [E, linux]))) (by omega)

/-- The hypothesis about the range of numbers is met. -/
theorem small : ∀ s ∈ ["5".toList, "%sl".toList], ∀ n, Integer E.W.isSpace s n → -2 ^ 31 ≤ n ∧ n < 2 ^ 31 := by
  intro s hs n hi
  simp only [List.mem_cons, List.not_mem_nil, or_false] at hs
  have last : ∀ {d : Str} {k : Nat}, Numeral d k → ∀ c ∈ d, TestBuiltin.isDigit c = true := fun h c hc => List.all_eq_true.1 ((Sig.Names.numeral_iff _ _).1 h).2.1 c hc
  rcases hs with rfl | rfl
  · generalize hx : "5".toList = x at hi
    have hlen : x.length = 1 := by rw [← hx]; rfl
    cases hi with
    | @unsigned spaces digits k _ hk =>
      obtain ⟨c, r, rfl, _⟩ := hk.head
      have : spaces = [] := by
        cases spaces with
        | nil => rfl
        | cons => simp at hlen
      subst this
      rw [List.nil_append] at hx
      rw [← hx] at hk
      rw [hk.unique five]
      omega
    | @plus spaces digits k _ hk =>
      obtain ⟨c, r, rfl, _⟩ := hk.head
      simp at hlen
      omega
    | @minus spaces digits k _ hk =>
      obtain ⟨c, r, rfl, _⟩ := hk.head
      simp at hlen
      omega
  · exfalso
    have nl : TestBuiltin.isDigit 'l' = false := by decide
    have done : ∀ {a d : Str} {k : Nat}, Numeral d k → "%sl".toList = a ++ d → False := by
      intro a d k hk he
      have hne : d ≠ [] := ((Sig.Names.numeral_iff _ _).1 hk).1
      have h1 : "%sl".toList.getLast? = some 'l' := rfl
      rw [he, List.getLast?_append, List.getLast?_eq_some_getLast hne] at h1
      have := last hk 'l' (by simp only [Option.some_or, Option.some.injEq] at h1; rw [← h1]; exact List.getLast_mem hne)
      rw [nl] at this
      cases this
    generalize hx : "%sl".toList = x at hi
    cases hi with
    | unsigned _ hk => exact done hk hx
    | @plus spaces digits k _ hk => exact done (a := spaces ++ ['+']) hk (by rw [hx]; simp)
    | @minus spaces digits k _ hk => exact done (a := spaces ++ ['-']) hk (by rw [hx]; simp)

example := kill_sends_partial (E := E) linux_ok jobs_run sys usage (by simp) (.inr ⟨_, rfl, signal, by decide⟩) small
example := kill_wraps E sys (p := -1) (by omega) (by omega) (s := Sig.Names.decimal (4294967295 : Nat)) (by rw [show ((4294967296 : Int) + -1).toNat = 4294967295 from rfl]; exact Sig.Names.decimal_numeral 4294967295)
example := kill_refused (E := E) linux_ok sys (args := []) (ops := []) (name := none) (.default (.operands (by simp))) (.inl rfl) (by simp)
example := kill_lists_all (E := E) linux_ok sys (args := ["-l".toList]) (letters := ['l']) (.last (letters := ['l']) (by simp) (by simp) (.operands (by simp)))
example : Lists E "393".toList 9 := by
  refine .number (k := 393) (Integer.unsigned (spaces := []) (k := 393) (by simp) ?_) (by omega) (by omega) (.inr (.inr ⟨by omega, by omega⟩)) (.inr (.inr ⟨"KILL".toList, by simp [E, linux]⟩)) (by omega)
  exact .snoc "39".toList 39 3 (by omega) (.snoc "3".toList 3 9 (by omega) (.digit 3 (by omega)))

theorem not_forbidden : ¬Forbidden ("kill".toList.map E.upper) := by
  rintro ⟨z, -, h | h⟩
  · exact absurd (List.cons.inj h).1 (by decide)
  · exact absurd (List.cons.inj h).1 (by decide)

example := kill_lists (E := E) linux_ok sys (args := ["-lv".toList, "kill".toList]) (letters := "lv".toList) (ops := ["kill".toList]) (.last (letters := "lv".toList) (by decide) (by decide) (.operands (by decide))) (by simp)
  (by intro s hs; simp only [List.mem_cons, List.not_mem_nil, or_false] at hs; subst hs; exact not_forbidden)

end Yash.Kill.Examples
