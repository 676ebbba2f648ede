import Verif.Shopt.Lemmas
/-! # Options: what parsing the arguments can do -/
set_option autoImplicit false

namespace Yash.Shopt

open Spec

/-- Options are set one after another; `b` is whether the shell is being started. -/
inductive Steps (W : World) (b : Bool) : State → State → Prop where
  | refl (s : State) : Steps W b s s
  | step {s s' : State} (inv : Option Invocation) (o : Opt) (enable : Bool) (hi : inv.isSome = b) (ho : o ∈ shellOptions)
      (h : Steps W b (setShellOption W inv o enable s).2.2 s') : Steps W b s s'

theorem Steps.trans {W : World} {b : Bool} {s t u : State} (h1 : Steps W b s t) (h2 : Steps W b t u) : Steps W b s u := by
  induction h1 with
  | refl => exact h2
  | step inv o enable hi ho _ ih => exact .step inv o enable hi ho (ih h2)

theorem Steps.one {W : World} {b : Bool} (inv : Option Invocation) (o : Opt) (enable : Bool) (hi : inv.isSome = b) (ho : o ∈ shellOptions) (s : State) :
    Steps W b s (setShellOption W inv o enable s).2.2 := .step inv o enable hi ho (.refl _)

theorem Steps.keeps {W : World} {b : Bool} {P : State → Prop} (hP : ∀ s (inv : Option Invocation) o enable, inv.isSome = b → o ∈ shellOptions → P s → P (setShellOption W inv o enable s).2.2)
    {s t : State} (h : Steps W b s t) (hs : P s) : P t := by
  induction h with
  | refl => exact hs
  | step inv o enable hi ho _ ih => exact ih (hP _ _ _ _ hi ho hs)

theorem setShellOption_inv (W : World) (inv : Option Invocation) (o : Opt) (enable : Bool) (s : State) : (setShellOption W inv o enable s).2.1.isSome = inv.isSome := by
  unfold setShellOption
  split
  · rfl
  · exact Option.isSome_map

theorem setNormalOption_inv {inv : Option Invocation} {w : Normal} {arg : Option Str} {s : State} {r : Res} (h : setNormalOption inv w arg s = some r) :
    r.2.1.isSome = inv.isSome ∧ r.2.2 = s := by
  unfold setNormalOption at h
  split at h
  · split at h
    · cases h; exact ⟨rfl, rfl⟩
    · cases h
  · split at h
    all_goals first
      | (cases h; exact ⟨rfl, rfl⟩)
      | (split at h
         · cases h; exact ⟨rfl, rfl⟩
         · cases h)

theorem handleResult_steps {W : World} {inv : Option Invocation} {shell : List Opt} {normal : List NormalOpt} {enable : Bool} {i n : Nat} {arg : Str} {rest rest' : List Str}
    {s : State} {r : Res} (hs : ∀ o ∈ shell, o ∈ shellOptions) (h : handleResult W inv shell normal enable i n arg rest s = some (r, rest')) :
    r.2.1.isSome = inv.isSome ∧ Steps W inv.isSome s r.2.2 ∧ ∃ p, rest = p ++ rest' := by
  unfold handleResult at h
  split at h
  · split at h
    · cases h; exact ⟨rfl, .refl _, [], rfl⟩
    · split at h
      · cases h
        exact ⟨setShellOption_inv .., .one _ _ _ rfl (hs _ (by simp)) _, [], rfl⟩
      · cases h
    · split at h
      · cases h
      · have key : ∀ (w : Normal) (a : Option Str) (rs : List Str), (setNormalOption inv w a s).map (·, rs) = some (r, rest') → r.2.1.isSome = inv.isSome ∧ Steps W inv.isSome s r.2.2 ∧ rest' = rs := by
          intro w a rs h
          rw [Option.map_eq_some_iff] at h
          obtain ⟨r', h1, h2⟩ := h
          cases h2
          obtain ⟨h3, h4⟩ := setNormalOption_inv h1
          exact ⟨h3, h4 ▸ .refl _, rfl⟩
        split at h
        · split at h
          · cases h; exact ⟨rfl, .refl _, [], rfl⟩
          · obtain ⟨h1, h2, rfl⟩ := key _ _ _ h
            exact ⟨h1, h2, [_], rfl⟩
        · obtain ⟨h1, h2, h3⟩ := key _ _ _ h
          exact ⟨h1, h2, [], h3.symm⟩
        · obtain ⟨h1, h2, h3⟩ := key _ _ _ h
          exact ⟨h1, h2, [], h3.symm⟩
        · cases h; exact ⟨rfl, .refl _, [], rfl⟩
    · cases h; exact ⟨rfl, .refl _, [], rfl⟩
  · cases h

theorem collect_mem (W : World) (name : Str) : ∀ o ∈ (collect W name).1, o ∈ shellOptions := by
  by_cases hf : ∃ p b, Full (plainName W name) p b
  · obtain ⟨p, b, hf⟩ := hf
    rw [collect_full hf]
    intro o ho
    simp only [List.mem_singleton] at ho
    exact ho ▸ hf.1
  · rw [collect_abbr fun p b h => hf ⟨p, b, h⟩]
    intro o ho
    rcases List.mem_append.1 ho with ho | ho
    · exact (mem_positives.1 ho).1
    · exact (mem_negatives.1 ho).1

theorem parseChar_steps {W : World} {inv : Option Invocation} {c : Char} {enable : Bool} {s : State} {r : Res} (h : parseChar W inv c enable s = some r) :
    r.2.1.isSome = inv.isSome ∧ Steps W inv.isSome s r.2.2 := by
  unfold parseChar at h
  split at h
  · rename_i o ho
    cases h
    exact ⟨setShellOption_inv .., .one _ _ _ rfl (List.mem_of_find?_eq_some ho) _⟩
  · split at h
    · obtain ⟨h1, h2⟩ := setNormalOption_inv h
      exact ⟨h1, h2 ▸ .refl _⟩
    · cases h; exact ⟨rfl, .refl _⟩

theorem parseShort_steps {W : World} {enable : Bool} : ∀ {cs : Str} {inv : Option Invocation} {rest rest' : List Str} {s : State} {r : Res},
    parseShort W inv enable cs rest s = some (r, rest') → r.2.1.isSome = inv.isSome ∧ Steps W inv.isSome s r.2.2 ∧ ∃ p, rest = p ++ rest' := by
  intro cs
  induction cs with
  | nil =>
    intro inv rest rest' s r h
    simp only [parseShort] at h
    cases h; exact ⟨rfl, .refl _, [], rfl⟩
  | cons c cs ih =>
    intro inv rest rest' s r h
    simp only [parseShort] at h
    split at h
    · split at h
      · cases h; exact ⟨rfl, .refl _, [], rfl⟩
      · rename_i name rest
        obtain ⟨h1, h2, p, h3⟩ := handleResult_steps (collect_mem W name) h
        exact ⟨h1, h2, name :: p, by rw [h3]; rfl⟩
      · exact handleResult_steps (collect_mem W _) h
    · cases h1 : parseChar W inv c enable s with
      | none => rw [h1] at h; cases h
      | some r1 =>
        obtain ⟨st, inv1, s1⟩ := r1
        rw [h1] at h
        simp only [Option.bind_eq_bind, Option.bind_some] at h
        obtain ⟨g1, g2⟩ := parseChar_steps h1
        split at h
        · obtain ⟨g3, g4, g5⟩ := ih h
          simp only at g1 g2
          rw [g1] at g3 g4
          exact ⟨g3, g2.trans g4, g5⟩
        · cases h; exact ⟨g1, g2, [], rfl⟩

theorem searchNormal_mem (posix : Bool) (inv : Option Invocation) (name : Str) (l : List NormalOpt) : ∀ o ∈ (searchNormal posix inv name l).2, o ∈ l := by
  induction l with
  | nil => intro o ho; cases ho
  | cons p l ih =>
    intro o ho
    simp only [searchNormal] at ho
    split at ho
    · exact .tail _ (ih o ho)
    · split at ho
      · split at ho
        · simp only [List.mem_singleton] at ho
          simp [ho]
        · split at ho
          · exact .tail _ (ih o ho)
          · rcases List.mem_cons.1 ho with rfl | ho
            · simp
            · exact .tail _ (ih o ho)
      · exact .tail _ (ih o ho)

theorem parseLong_steps {W : World} {enable : Bool} {inv : Option Invocation} {arg : Str} {rest rest' : List Str} {s : State} {r : Res}
    (h : parseLong W inv enable arg rest s = some (r, rest')) : r.2.1.isSome = inv.isSome ∧ Steps W inv.isSome s r.2.2 ∧ ∃ p, rest = p ++ rest' := by
  unfold parseLong at h
  split at h
  · exact handleResult_steps (by simp) h
  · dsimp only at h
    split at h
    · refine handleResult_steps ?_ h
      split
      · simp
      · exact collect_mem W arg
    · exact handleResult_steps (collect_mem W arg) h

/-- What parsing the arguments can do: options are set, and then perhaps the positional parameters. -/
theorem parseLoop_steps {W : World} : ∀ (fuel : Nat) {inv : Option Invocation} {args rest : List Str} {s : State} {r : Res}, parseLoop W fuel inv args s = some (r, rest) →
    ∃ s1, Steps W inv.isSome s s1 ∧ (∃ p, args = p ++ rest) ∧ (r.2.2 = s1 ∨ (r.1 = .success ∧ inv = none ∧ r.2.2 = { s1 with params := rest }))
  | 0, inv, args, rest, s, r, h => by cases h
  | fuel + 1, inv, [], rest, s, r, h => by
    cases h
    exact ⟨s, .refl _, ⟨[], rfl⟩, .inl rfl⟩
  | fuel + 1, inv, arg :: args, rest, s, r, h => by
    have operands : ∀ l, some ((Status.success, inv, if inv.isNone then { s with params := l } else s), l) = some (r, rest) → (∃ p, arg :: args = p ++ l) →
        ∃ s1, Steps W inv.isSome s s1 ∧ (∃ p, arg :: args = p ++ rest) ∧ (r.2.2 = s1 ∨ (r.1 = .success ∧ inv = none ∧ r.2.2 = { s1 with params := rest })) := by
      intro l h hl
      cases h
      refine ⟨s, .refl _, hl, ?_⟩
      cases inv with
      | none => exact .inr ⟨rfl, rfl, rfl⟩
      | some i => exact .inl rfl
    have main : ∀ l, (if l.isEmpty then some ((Status.success, inv, s), l) else some ((Status.success, inv, if inv.isNone then { s with params := l } else s), l)) = some (r, rest) →
        (∃ p, arg :: args = p ++ l) →
        ∃ s1, Steps W inv.isSome s s1 ∧ (∃ p, arg :: args = p ++ rest) ∧ (r.2.2 = s1 ∨ (r.1 = .success ∧ inv = none ∧ r.2.2 = { s1 with params := rest })) := by
      intro l h hl
      split at h
      · cases h; exact ⟨s, .refl _, hl, .inl rfl⟩
      · exact operands l h hl
    have next : ∀ (st : Status) (inv1 : Option Invocation) (s1 : State) (rest1 : List Str), inv1.isSome = inv.isSome → Steps W inv.isSome s s1 → (∃ p, args = p ++ rest1) →
        (if st = .success then parseLoop W fuel inv1 rest1 s1 else some ((st, inv1, s1), rest1)) = some (r, rest) →
        ∃ s1, Steps W inv.isSome s s1 ∧ (∃ p, arg :: args = p ++ rest) ∧ (r.2.2 = s1 ∨ (r.1 = .success ∧ inv = none ∧ r.2.2 = { s1 with params := rest })) := by
      intro st inv1 s1 rest1 h1 h2 ⟨p, h3⟩ h
      split at h
      · obtain ⟨s2, g1, ⟨q, g2⟩, g3⟩ := parseLoop_steps fuel h
        rw [h1] at g1
        refine ⟨s2, h2.trans g1, ⟨arg :: p ++ q, by rw [h3, g2]; simp⟩, g3.imp id fun ⟨a, b, c⟩ => ⟨a, ?_, c⟩⟩
        subst b
        cases inv with
        | none => rfl
        | some _ => cases h1
      · cases h
        exact ⟨s1, h2, ⟨arg :: p, by rw [h3]; rfl⟩, .inl rfl⟩
    have go : ∀ (enable : Bool) (c : Char) (cs : Str), (match cs with
        | [] => (fun l : List Str => if l.isEmpty then some ((Status.success, inv, s), l) else some ((Status.success, inv, if inv.isNone then { s with params := l } else s), l))
            (if enable && inv.isSome then args else arg :: args)
        | d :: ds =>
          if d = c && ds.isEmpty then some ((Status.success, inv, if inv.isNone then { s with params := if enable then args else arg :: args } else s), if enable then args else arg :: args)
          else do
            let ((st, inv, s), rest) ← parseArg W inv enable c cs args s
            if st = .success then parseLoop W fuel inv rest s else some ((st, inv, s), rest)) = some (r, rest) →
        ∃ s1, Steps W inv.isSome s s1 ∧ (∃ p, arg :: args = p ++ rest) ∧ (r.2.2 = s1 ∨ (r.1 = .success ∧ inv = none ∧ r.2.2 = { s1 with params := rest })) := by
      intro enable c cs h
      split at h
      · refine main _ h ?_
        split
        · exact ⟨[arg], rfl⟩
        · exact ⟨[], rfl⟩
      · split at h
        · refine operands _ h ?_
          split
          · exact ⟨[arg], rfl⟩
          · exact ⟨[], rfl⟩
        · rename_i d ds _
          cases h1 : parseArg W inv enable c (d :: ds) args s with
          | none => rw [h1] at h; cases h
          | some x =>
            obtain ⟨⟨st, inv1, s1⟩, rest1⟩ := x
            rw [h1] at h
            simp only [Option.bind_eq_bind, Option.bind_some] at h
            have : inv1.isSome = inv.isSome ∧ Steps W inv.isSome s s1 ∧ ∃ p, args = p ++ rest1 := by
              unfold parseArg at h1
              split at h1
              · exact parseLong_steps h1
              · exact parseShort_steps h1
            exact next st inv1 s1 rest1 this.1 this.2.1 this.2.2 h
    simp only [parseLoop] at h
    split at h
    · exact go _ _ _ h
    · exact go _ _ _ h
    · exact main _ h ⟨[], rfl⟩

theorem setBuiltin_steps {W : World} {args : List Str} {s s' : State} {st : Status} {out : Str} (h : setBuiltin W args s = some (out, st, s')) :
    ∃ s1, Steps W false s s1 ∧ (s' = s1 ∨ (st = .success ∧ ∃ p q, args = p ++ q ∧ s' = { s1 with params := q })) := by
  unfold setBuiltin at h
  split at h
  · cases h; exact ⟨s, .refl _, .inl rfl⟩
  · rw [Option.map_eq_some_iff] at h
    obtain ⟨⟨⟨st1, inv1, s1⟩, rest⟩, h1, h2⟩ := h
    cases h2
    obtain ⟨s2, h3, ⟨p, h4⟩, h5⟩ := parseLoop_steps _ h1
    exact ⟨s2, h3, h5.imp id fun ⟨a, _, b⟩ => ⟨a, p, rest, h4, b⟩⟩

end Yash.Shopt
