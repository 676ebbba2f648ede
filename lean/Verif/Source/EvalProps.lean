import Verif.Source.EvalSpec
import Verif.Source.Props
/-! # Property C95: `eval` and iterative execution -/
set_option autoImplicit false

namespace Yash.Source

open Spec

variable {α : Type}

theorem joinSpace_eq (ws : List Str) : joinSpace ws = List.intercalate [' '] ws := by
  induction ws with
  | nil => rfl
  | cons w ws ih =>
    cases ws with
    | nil => simp [joinSpace, List.intercalate]
    | cons v vs => rw [joinSpace, ih] <;> simp [List.intercalate]

/-- One round of the loop. -/
theorem iterLoop_cons (X : Exec α) (save : Int) (c : Str) (cs : List Str) (st : Int) (s s' : State α) (h : X.run c s = some s') :
    (GoesOn X save s' → iterLoop X save (c :: cs) st s = iterLoop X save cs s'.laststatus (settled save s')) ∧
    (¬GoesOn X save s' → iterLoop X save (c :: cs) st s = some (s'.laststatus, settled save s')) := by
  obtain ⟨x, e, u, l, f, r⟩ := s'
  rw [iterLoop]
  simp only [h, GoesOn, settled]
  cases e <;> simp <;> constructor
  all_goals intros
  all_goals first
    | (rw [if_neg]; simp_all; done)
    | (rw [if_pos]; grind)
    | grind

theorem trace_nil (X : Exec α) (st : Int) (s : State α) : Trace X st s [] :=
  ⟨by simp, by simp, by intro l t u r h; simp at h⟩

theorem trace_one {X : Exec α} {st : Int} {c : Str} {s s' : State α} (h : X.run c s = some s') : Trace X st s [⟨c, s, s'⟩] := by
  refine ⟨by simpa using h, by simp, ?_⟩
  intro l t u r e
  have := congrArg List.length e
  simp at this
  omega

theorem trace_cons {X : Exec α} {st : Int} {c : Str} {s s' : State α} {steps : List (Step α)} (h : X.run c s = some s') (hg : GoesOn X st s')
    (ht : Trace X st (settled st s') steps) : Trace X st s (⟨c, s, s'⟩ :: steps) := by
  refine ⟨?_, by simp, ?_⟩
  · intro t hm
    rcases List.mem_cons.1 hm with rfl | hm
    · exact h
    · exact ht.runs t hm
  · intro l t u r e
    cases l with
    | nil =>
      simp only [List.nil_append, List.cons.injEq] at e
      obtain ⟨rfl, rfl⟩ := e
      exact ⟨hg, ht.first u rfl⟩
    | cons x l =>
      simp only [List.cons_append, List.cons.injEq] at e
      exact ht.next l t u r e.2

/-- The loop. -/
theorem iterLoop_spec (X : Exec α) (save : Int) (cs : List Str) : ∀ (st : Int) (s : State α),
    ∃ steps left, Trace X save s steps ∧ cs = steps.map (·.command) ++ left ∧
      ((iterLoop X save cs st s = some ((steps.getLast?.map (·.after.laststatus)).getD st, endState save s steps) ∧
        (left = [] ∨ ∃ t, steps.getLast? = some t ∧ ¬GoesOn X save t.after)) ∨
       (iterLoop X save cs st s = none ∧ (∀ t ∈ steps, GoesOn X save t.after) ∧ ∃ c rest, left = c :: rest ∧ X.run c (endState save s steps) = none)) := by
  induction cs with
  | nil => intro st s; exact ⟨[], [], trace_nil _ _ _, rfl, Or.inl ⟨rfl, Or.inl rfl⟩⟩
  | cons c cs ih =>
    intro st s
    cases h : X.run c s with
    | none =>
      refine ⟨[], c :: cs, trace_nil _ _ _, rfl, Or.inr ⟨?_, by simp, c, cs, rfl, h⟩⟩
      rw [iterLoop, h]
    | some s' =>
      obtain ⟨h1, h2⟩ := iterLoop_cons X save c cs st s s' h
      by_cases hg : GoesOn X save s'
      · obtain ⟨steps, left, ht, hc, hr⟩ := ih s'.laststatus (settled save s')
        have he : endState save s (⟨c, s, s'⟩ :: steps) = endState save (settled save s') steps := by
          unfold endState
          rw [List.getLast?_cons]
          cases steps.getLast? <;> rfl
        refine ⟨⟨c, s, s'⟩ :: steps, left, trace_cons h hg ht, by rw [hc]; rfl, ?_⟩
        rw [h1 hg, he]
        rcases hr with ⟨hr, hl⟩ | ⟨hr, ha, hl⟩
        · left
          refine ⟨?_, ?_⟩
          · rw [hr, List.getLast?_cons]
            cases steps.getLast? <;> rfl
          · rcases hl with hl | ⟨t, hl, hn⟩
            · exact Or.inl hl
            · exact Or.inr ⟨t, by rw [List.getLast?_cons, hl]; rfl, hn⟩
        · right
          refine ⟨hr, ?_, hl⟩
          intro t hm
          rcases List.mem_cons.1 hm with rfl | hm
          · exact hg
          · exact ha t hm
      · exact ⟨[⟨c, s, s'⟩], cs, trace_one h, rfl, Or.inl ⟨h2 hg, Or.inr ⟨_, rfl, hg⟩⟩⟩

/-- The state in which the commands of an iteration are executed. -/
theorem iteration_spec (X : Exec α) (cs : List Str) (s : State α) :
    ∃ steps left, Trace X s.laststatus { s with execstate := { s.execstate with iterating := true } } steps ∧ cs = steps.map (·.command) ++ left ∧
      ((∃ s', execIteration X cs s = some ((steps.getLast?.map (·.after.laststatus)).getD 0, s') ∧
          s' = { endState s.laststatus s steps with execstate := { (endState s.laststatus s steps).execstate with iterating := s.execstate.iterating } } ∧
          (left = [] ∨ ∃ t, steps.getLast? = some t ∧ ¬GoesOn X s.laststatus t.after)) ∨
       (execIteration X cs s = none ∧ (∀ t ∈ steps, GoesOn X s.laststatus t.after) ∧
          ∃ c rest, left = c :: rest ∧ X.run c (endState s.laststatus { s with execstate := { s.execstate with iterating := true } } steps) = none)) := by
  obtain ⟨steps, left, ht, hc, hr⟩ := iterLoop_spec X s.laststatus cs 0 { s with execstate := { s.execstate with iterating := true } }
  refine ⟨steps, left, ht, hc, ?_⟩
  unfold execIteration
  rcases hr with ⟨hr, hl⟩ | ⟨hr, ha, hl⟩
  · left
    simp only [hr]
    refine ⟨_, rfl, ?_, hl⟩
    unfold endState
    cases steps.getLast? <;> rfl
  · right
    simp only [hr]
    exact ⟨trivial, ha, hl⟩

/-- `eval` without `-i` executes the operands, joined by spaces, once, in the state of the caller; the status is that of the command. -/
theorem eval_joins {E : Env α} {X : Exec α} {args : List Str} {letters : List (Char × Option Str)} {operands : List Str} (hg : Given E Leave.iterOptions args letters operands)
    (hh : ¬Has letters '-') (hi : ¬Has letters 'i') (s : State α) :
    match X.run (List.intercalate [' '] operands) s with
    | none => evalBuiltin E X args s = .exitIn
    | some s' => evalBuiltin E X args s = .stay s' s'.laststatus := by
  obtain ⟨reports, used, hp, rfl⟩ := hg
  unfold evalBuiltin
  simp only [hp]
  rw [if_neg (fun x => hh ((any_has _ _).1 x)), if_neg (fun x => hi ((any_has _ _).1 x)), joinSpace_eq]
  cases X.run (List.intercalate [' '] operands) s <;> rfl

/-- `eval -i` executes the operands one after the other, as long as they say to go on. Each one sees the same `$?`; afterwards it is as before for the
caller, as is whether an iteration can be left; the status is that of the last executed command, or 0. -/
theorem eval_iterates {E : Env α} {X : Exec α} {args : List Str} {letters : List (Char × Option Str)} {operands : List Str} (hg : Given E Leave.iterOptions args letters operands)
    (hh : ¬Has letters '-') (hi : Has letters 'i') (s : State α) :
    ∃ steps left, Trace X s.laststatus { s with execstate := { s.execstate with iterating := true } } steps ∧ operands = steps.map (·.command) ++ left ∧
      ((∃ s', evalBuiltin E X args s = .stay s' ((steps.getLast?.map (·.after.laststatus)).getD 0) ∧
          s' = { endState s.laststatus s steps with execstate := { (endState s.laststatus s steps).execstate with iterating := s.execstate.iterating } } ∧
          (left = [] ∨ ∃ t, steps.getLast? = some t ∧ ¬GoesOn X s.laststatus t.after)) ∨
       (evalBuiltin E X args s = .exitIn ∧ (∀ t ∈ steps, GoesOn X s.laststatus t.after) ∧
          ∃ c rest, left = c :: rest ∧ X.run c (endState s.laststatus { s with execstate := { s.execstate with iterating := true } } steps) = none)) := by
  obtain ⟨reports, used, hp, rfl⟩ := hg
  obtain ⟨steps, left, ht, hc, hr⟩ := iteration_spec X operands s
  refine ⟨steps, left, ht, hc, ?_⟩
  unfold evalBuiltin
  simp only [hp]
  rw [if_neg (fun x => hh ((any_has _ _).1 x)), if_pos ((any_has _ _).2 hi)]
  rcases hr with ⟨s', hr, hs⟩ | ⟨hr, hs⟩
  · left
    rw [hr]
    exact ⟨s', rfl, hs⟩
  · right
    simp only [hr]
    exact ⟨trivial, hs⟩

/-- In the state after an iteration nothing is being left by `break -i` or `continue -i`, and `$?` is as before. -/
theorem iteration_contained (X : Exec α) (cs : List Str) (s s' : State α) (st : Int) (h : execIteration X cs s = some (st, s')) (h1 : s.exc ≠ .breakIteration) (h2 : s.exc ≠ .contIteration) :
    s'.exc ≠ .breakIteration ∧ s'.exc ≠ .contIteration ∧ s'.laststatus = s.laststatus ∧ s'.execstate.iterating = s.execstate.iterating := by
  obtain ⟨steps, left, -, -, hr⟩ := iteration_spec X cs s
  rcases hr with ⟨t, hr, ht, -⟩ | ⟨hr, -⟩
  · rw [h] at hr
    cases hr
    subst ht
    unfold endState
    cases steps.getLast? with
    | none => exact ⟨h1, h2, rfl, rfl⟩
    | some u =>
      simp only [settled]
      refine ⟨?_, ?_, trivial, trivial⟩ <;> split <;> simp_all
  · rw [h] at hr
    cases hr

/-- Wrong options: nothing is executed. -/
theorem eval_refused {E : Env α} {X : Exec α} {args : List Str} {reports : List Xgetopt.Report} {used ops : List Str} {e : Xgetopt.Err} (s : State α)
    (hp : Xgetopt.Spec.parse (E.getopt Leave.iterOptions) none args = ⟨reports, used, ops, .error e⟩) (hh : ¬Has (reports.map fun o => (o.1.short, o.2)) '-') :
    evalBuiltin E X args s = if E.posix = true ∧ E.special = true ∧ E.interactive = false then .exit 2 else .stay s 2 := by
  unfold evalBuiltin
  simp only [hp]
  rw [if_neg (fun x => hh ((any_has _ _).1 x))]
  cases E.posix <;> cases E.special <;> cases E.interactive <;> simp

end Yash.Source
