import Verif.Getopts.Lemmas
/-! # getopts: one call after another -/
set_option autoImplicit false

namespace Yash.Getopts

open Spec
open Yash.Variable (Name Word Shell)
open Yash.Variable.Spec (varAt Sane)

/-- The events left at a position in the arguments, and the number of arguments before the first
operand. -/
def Rem (opts : Options) (args : List Word) (i s : Nat) (evs : List Event) (k : Nat) : Prop :=
  (s = 1 ∧ ∃ m, Parse opts (args.drop i) evs m ∧ k = i + m) ∨
  (1 < s ∧ ∃ c cs ws evs1 evs2 j m, args.drop i = ('-' :: c :: cs) :: ws ∧ c :: cs ≠ ['-'] ∧
    Cluster opts ws (('-' :: c :: cs).drop s) evs1 j ∧ Parse opts (ws.drop j) evs2 m ∧
    evs = evs1 ++ evs2 ∧ k = i + 1 + j + m)

/-- What is found is the event. -/
inductive Reports : Found → Event → Nat → Nat → Prop where
  | flag (c : Char) (i s : Nat) : Reports (.flag c i s) (.flag c) i s
  | withArg (c : Char) (w : Word) (i s : Nat) : Reports (.withArg c w i s) (.withArg c w) i s
  | invalid (c : Char) (i s : Nat) : Reports (.invalid c i s) (.invalid c) i s
  | missing (c : Char) (i s : Nat) : Reports (.missing c i s) (.missing c) i s

/-- A found option, and the position after it. -/
structure Next (opts : Options) (args : List Word) (f : Found) (evs : List Event) (k : Nat) (e : Event)
    (evs' : List Event) (i' s' k' : Nat) : Prop where
  split : evs = e :: evs'
  reports : Reports f e i' s'
  rem : Rem opts args i' s' evs' k'
  count : ((∀ c, e ≠ .missing c) ∧ k' = k) ∨
    ((∃ c, e = .missing c) ∧ evs' = [] ∧ k' = k + 1 ∧ k = args.length)
  index : i' ≤ args.length + 1
  sub : s' = 1 ∨ ∃ a ∈ args, s' ≤ a.length

theorem known_unique (opts : Options) (c : Char) (b b' : Bool) (h : Known opts c b)
    (h' : Known opts c b') : b = b' := by
  obtain ⟨l, r, h1, h2⟩ := h
  obtain ⟨l', r', h1', h2'⟩ := h'
  rw [h1] at h1'
  have := List.append_eq_append_iff.mp h1'
  rcases this with ⟨t, ht, ht'⟩ | ⟨t, ht, ht'⟩
  · cases t with
    | nil => simp only [List.nil_append, List.cons.injEq] at ht'; cases ht'.1; rfl
    | cons x t =>
      simp only [List.cons_append, List.cons.injEq] at ht'
      exfalso
      exact h2' b (by rw [ht, ht'.1]; simp)
  · cases t with
    | nil => simp only [List.nil_append, List.cons.injEq] at ht'; cases ht'.1; rfl
    | cons x t =>
      simp only [List.cons_append, List.cons.injEq] at ht'
      exfalso
      exact h2 b' (by rw [ht, ht'.1]; simp)

theorem known_mem (opts : Options) (c : Char) (b : Bool) (h : Known opts c b) : (c, b) ∈ opts := by
  obtain ⟨l, r, h1, _⟩ := h
  rw [h1]; simp

/-- The decision of `scanOption`. -/
theorem scanOption_unknown (silent : Bool) (opts : Options) (options : List Char)
    (hv : ∀ o ∈ opts, o.1 ≠ ':') (hw : Written silent opts options) (c : Char) (tail : Word)
    (rest : List Word) (i s : Nat) (h : Unknown opts c) :
    scanOption options c tail rest i s = .invalid c i s := by
  unfold scanOption
  by_cases hc : c = ':'
  · rw [if_pos hc]
  · rw [if_neg hc]
    rcases afterChar_written c silent opts hv hc options hw with ⟨h1, _⟩ | ⟨s', _, h2⟩ | ⟨s', _, _, h3⟩
    · rw [h1]
    · exact absurd (known_mem _ _ _ h2) (h _)
    · exact absurd (known_mem _ _ _ h3) (h _)

theorem scanOption_flag (silent : Bool) (opts : Options) (options : List Char)
    (hv : ∀ o ∈ opts, o.1 ≠ ':') (hw : Written silent opts options) (c : Char) (tail : Word)
    (rest : List Word) (i s : Nat) (h : Known opts c false) :
    scanOption options c tail rest i s = .flag c i s := by
  have hc : c ≠ ':' := hv _ (known_mem _ _ _ h)
  unfold scanOption
  rw [if_neg hc]
  rcases afterChar_written c silent opts hv hc options hw with ⟨_, h1⟩ | ⟨s', _, h2⟩ | ⟨s', h2, h3, _⟩
  · exact absurd (known_mem _ _ _ h) (h1 _)
  · exact absurd (known_unique _ _ _ _ h h2) (by decide)
  · rw [h2]
    cases s' with
    | nil => rfl
    | cons x s' =>
      have hx : x ≠ ':' := by simpa using h3
      split
      · rename_i heq; cases heq
      · rename_i heq; cases heq; exact absurd rfl hx
      · rfl

theorem scanOption_arg (silent : Bool) (opts : Options) (options : List Char)
    (hv : ∀ o ∈ opts, o.1 ≠ ':') (hw : Written silent opts options) (c : Char) (tail : Word)
    (rest : List Word) (i s : Nat) (h : Known opts c true) :
    scanOption options c tail rest i s =
      match tail, rest with
      | [], [] => .missing c (i + 2) 1
      | [], w :: _ => .withArg c w (i + 2) 1
      | _ :: _, _ => .withArg c tail (i + 1) 1 := by
  have hc : c ≠ ':' := hv _ (known_mem _ _ _ h)
  unfold scanOption
  rw [if_neg hc]
  rcases afterChar_written c silent opts hv hc options hw with ⟨_, h1⟩ | ⟨s', h2, _⟩ | ⟨s', _, _, h2⟩
  · exact absurd (known_mem _ _ _ h) (h1 _)
  · rw [h2]
    cases tail <;> cases rest <;> rfl
  · exact absurd (known_unique _ _ _ _ h h2) (by decide)

theorem drop_succ_of_cons {α : Type} (l : List α) (i : Nat) (a : α) (t : List α)
    (h : l.drop i = a :: t) : l.drop (i + 1) = t ∧ i < l.length ∧ a ∈ l := by
  refine ⟨?_, ?_, ?_⟩
  · rw [← List.drop_drop, h]; rfl
  · apply Decidable.byContradiction
    intro hc
    rw [List.drop_eq_nil_of_le (by omega)] at h
    cases h
  · have : a ∈ l.drop i := by rw [h]; simp
    exact List.mem_of_mem_drop this

/-- One option character. -/
theorem scan_step (silent : Bool) (opts : Options) (options : List Char)
    (hv : ∀ o ∈ opts, o.1 ≠ ':') (hw : Written silent opts options) (args : List Word) (i s : Nat)
    (c : Char) (cs : List Char) (ws : List Word) (hd : args.drop i = ('-' :: c :: cs) :: ws)
    (hne : c :: cs ≠ ['-']) (hs : 1 ≤ s) (opt : Char) (tail : Word)
    (ho : ('-' :: c :: cs).drop s = opt :: tail) (evs1 evs2 : List Event) (j m : Nat)
    (hcl : Cluster opts ws (opt :: tail) evs1 j) (hp : Parse opts (ws.drop j) evs2 m) :
    ∃ e evs' i' s' k', Next opts args (scanOption options opt tail ws i (s + 1)) (evs1 ++ evs2)
      (i + 1 + j + m) e evs' i' s' k' := by
  obtain ⟨hd1, hil, hmem⟩ := drop_succ_of_cons _ _ _ _ hd
  obtain ⟨htail, hsl, _⟩ := drop_succ_of_cons _ _ _ _ ho
  have hd2 : args.drop (i + 2) = ws.drop 1 := by
    rw [← hd1, List.drop_drop]
  have hlen : args.length = i + 1 + ws.length := by
    have := congrArg List.length hd
    simp only [List.length_drop, List.length_cons] at this
    omega
  cases hcl with
  | invalid _ _ evs _ h1 h2 =>
    refine ⟨.invalid opt, evs ++ evs2, i, s + 1, _, rfl, ?_, Or.inr ⟨by omega, c, cs, ws, evs, evs2, j, m,
      hd, hne, by rw [htail]; exact h2, hp, rfl, rfl⟩, Or.inl ⟨fun _ h => (by cases h), rfl⟩, by omega,
      Or.inr ⟨_, hmem, by omega⟩⟩
    rw [scanOption_unknown silent opts options hv hw _ _ _ _ _ h1]
    exact .invalid _ _ _
  | flag _ _ evs _ h1 h2 =>
    refine ⟨.flag opt, evs ++ evs2, i, s + 1, _, rfl, ?_, Or.inr ⟨by omega, c, cs, ws, evs, evs2, j, m,
      hd, hne, by rw [htail]; exact h2, hp, rfl, rfl⟩, Or.inl ⟨fun _ h => (by cases h), rfl⟩, by omega,
      Or.inr ⟨_, hmem, by omega⟩⟩
    rw [scanOption_flag silent opts options hv hw _ _ _ _ _ h1]
    exact .flag _ _ _
  | attached _ _ h1 h2 =>
    refine ⟨.withArg opt tail, evs2, i + 1, 1, _, rfl, ?_, Or.inl ⟨rfl, m, by rw [hd1]; exact hp, rfl⟩,
      Or.inl ⟨fun _ h => (by cases h), by omega⟩, by omega, Or.inl rfl⟩
    rw [scanOption_arg silent opts options hv hw _ _ _ _ _ h1]
    cases tail with
    | nil => exact absurd rfl h2
    | cons x t => exact .withArg _ _ _ _
  | separate _ w ws' h1 h2 =>
    refine ⟨.withArg opt w, evs2, i + 2, 1, _, rfl, ?_, Or.inl ⟨rfl, m, by rw [hd2]; exact hp, rfl⟩,
      Or.inl ⟨fun _ h => (by cases h), by omega⟩, by omega, Or.inl rfl⟩
    rw [scanOption_arg silent opts options hv hw _ _ _ _ _ h1, h2]
    exact .withArg _ _ _ _
  | missing _ h1 h2 =>
    subst h2
    simp only [List.drop_nil] at hp hd2
    cases hp
    refine ⟨.missing opt, [], i + 2, 1, i + 2, rfl, ?_, Or.inl ⟨rfl, 0, by rw [hd2]; exact .nil, rfl⟩,
      Or.inr ⟨⟨_, rfl⟩, rfl, by omega, ?_⟩, by omega, Or.inl rfl⟩
    · rw [scanOption_arg silent opts options hv hw _ _ _ _ _ h1]
      exact .missing _ _ _
    · simp only [List.length_nil] at hlen
      omega

theorem parseArg_cluster (options : List Char) (c : Char) (cs : List Char) (ws : List Word) (i s : Nat)
    (hne : c :: cs ≠ ['-']) :
    parseArg options (('-' :: c :: cs) :: ws) i s =
      match ('-' :: c :: cs).drop s with
      | [] => parseArg options ws (i + 1) 1
      | opt :: tail => scanOption options opt tail ws i (s + 1) := by
  have h : ¬ (decide (c = '-') && cs.isEmpty) = true := by
    intro h
    simp only [Bool.and_eq_true, decide_eq_true_eq, List.isEmpty_iff] at h
    obtain ⟨rfl, rfl⟩ := h
    exact hne rfl
  rw [parseArg, if_neg h]
  cases ('-' :: c :: cs).drop s <;> rfl

/-- From the beginning of an argument. -/
theorem parse_step (silent : Bool) (opts : Options) (options : List Char)
    (hv : ∀ o ∈ opts, o.1 ≠ ':') (hw : Written silent opts options) (args : List Word) (i : Nat)
    (evs : List Event) (m : Nat) (hp : Parse opts (args.drop i) evs m) :
    (evs = [] ∧ parseArg options (args.drop i) i 1 = .done (i + m)) ∨
    ∃ e evs' i' s' k', Next opts args (parseArg options (args.drop i) i 1) evs (i + m)
      e evs' i' s' k' := by
  generalize hd : args.drop i = l at hp
  cases hp with
  | nil => exact Or.inl ⟨rfl, rfl⟩
  | operand w ws h =>
    left
    refine ⟨rfl, ?_⟩
    rw [parseArg]
    · rfl
    · rintro c cs rfl
      rcases h with h | h
      · exact absurd rfl h
      · cases h
  | separator ws => exact Or.inl ⟨rfl, rfl⟩
  | cluster c cs ws evs1 evs2 j k hne hcl hp =>
    right
    rw [parseArg_cluster _ _ _ _ _ _ hne]
    have := scan_step silent opts options hv hw args i 1 c cs ws hd hne (by omega) c cs rfl _ _ _ _ hcl hp
    rw [show i + 1 + j + k = i + (1 + j + k) from by omega] at this
    exact this

/-- One call. -/
theorem find_step (silent : Bool) (opts : Options) (options : List Char)
    (hv : ∀ o ∈ opts, o.1 ≠ ':') (hw : Written silent opts options) (args : List Word) (i s : Nat)
    (evs : List Event) (k : Nat) (hr : Rem opts args i s evs k) :
    (evs = [] ∧ findOption options args i s = .done k) ∨
    ∃ e evs' i' s' k', Next opts args (findOption options args i s) evs k e evs' i' s' k' := by
  have hf : findOption options args i s = parseArg options (args.drop i) i s := by
    unfold findOption
    split
    · rename_i h
      rw [List.drop_eq_nil_of_le h]
      rfl
    · rfl
  rw [hf]
  rcases hr with ⟨rfl, m, hp, rfl⟩ | ⟨hs, c, cs, ws, evs1, evs2, j, m, hd, hne, hcl, hp, rfl, rfl⟩
  · exact parse_step silent opts options hv hw args i evs m hp
  · rw [hd, parseArg_cluster _ _ _ _ _ _ hne]
    cases ho : ('-' :: c :: cs).drop s with
    | nil =>
      rw [ho] at hcl
      cases hcl
      obtain ⟨hd1, _, _⟩ := drop_succ_of_cons _ _ _ _ hd
      rw [List.drop_zero, ← hd1] at hp
      rw [← hd1]
      exact parse_step silent opts options hv hw args (i + 1) evs2 m hp
    | cons opt tail =>
      rw [ho] at hcl
      exact Or.inr <| scan_step silent opts options hv hw args i s c cs ws hd hne (by omega) opt tail ho _ _ _ _ hcl hp

/-! ### The variables -/

def argAct : Option Word → Action
  | some a => .set optargName a
  | none => .unset optargName

def ArgShown (sh : Shell) : Option Word → Prop
  | some a => Value sh optargName a
  | none => Absent sh optargName

/-- Three actions on different variables. -/
theorem try_three (sh : Shell) (hs : Sane sh) (name : Name) (h1 : name ≠ optindName)
    (h2 : name ≠ optargName) (o1 : Ordinary sh name) (o2 : Ordinary sh optindName)
    (o3 : Ordinary sh optargName) (w t : Word) (arg : Option Word) (as : List Action)
    (ha : as = [.set name w, argAct arg,
        .set optindName t] ∨
      as = [argAct arg, .set name w,
        .set optindName t] ∨
      as = [.set optindName t, .set name w,
        argAct arg]) :
    ∃ sh', actTry sh as = some (sh', true) ∧ actAll sh as = some sh' ∧ Sane sh' ∧ Ordinary sh' name ∧
      Ordinary sh' optindName ∧ Ordinary sh' optargName ∧ Value sh' name w ∧ Value sh' optindName t ∧
      ArgShown sh' arg := by
  have h3 : optindName ≠ optargName := by decide
  have argOk : ∀ sh, Sane sh → Ordinary sh optargName →
      ∃ sh', act sh (argAct arg) =
        some (sh', true) ∧ Sane sh' ∧
        ArgShown sh' arg ∧
        Ordinary sh' optargName ∧ ∀ m d, m ≠ optargName → varAt sh' d m = varAt sh d m := by
    intro sh hs ho
    cases arg with
    | none =>
      obtain ⟨sh', h1, h2, h3, h4⟩ := unset_ok sh optargName hs ho
      exact ⟨sh', h1, h2, h3, h3.ordinary, h4⟩
    | some a =>
      obtain ⟨sh', h1, h2, h3, h4, h5⟩ := set_ok sh optargName a hs ho
      exact ⟨sh', h1, h2, h3, h4, h5⟩
  have argCongr : ∀ sh sh' : Shell, (∀ d, varAt sh' d optargName = varAt sh d optargName) →
      ArgShown sh arg →
      ArgShown sh' arg := by
    intro sh sh' h hv
    cases arg with
    | none => exact Absent.congr h hv
    | some a => exact Value.congr h hv
  rcases ha with rfl | rfl | rfl
  · obtain ⟨sa, a1, a2, a3, a4, a5⟩ := set_ok sh name w hs o1
    obtain ⟨sb, b1, b2, b3, b4, b5⟩ := argOk sa a2 (o3.congr fun d => a5 _ d h2.symm)
    obtain ⟨sc, c1, c2, c3, c4, c5⟩ := set_ok sb optindName t b2
      ((o2.congr fun d => a5 _ d h1.symm).congr fun d => b5 _ d h3)
    refine ⟨sc, by simp only [actTry, a1, b1, c1], by simp only [actAll, a1, b1, c1], c2,
      (a4.congr fun d => b5 _ d h2).congr fun d => c5 _ d h1, c4, b4.congr fun d => c5 _ d h3.symm,
      (Value.congr (fun d => b5 _ d h2) a3).congr fun d => c5 _ d h1, c3,
      argCongr sb sc (fun d => c5 _ d h3.symm) b3⟩
  · obtain ⟨sb, b1, b2, b3, b4, b5⟩ := argOk sh hs o3
    obtain ⟨sa, a1, a2, a3, a4, a5⟩ := set_ok sb name w b2 (o1.congr fun d => b5 _ d h2)
    obtain ⟨sc, c1, c2, c3, c4, c5⟩ := set_ok sa optindName t a2
      ((o2.congr fun d => b5 _ d h3).congr fun d => a5 _ d h1.symm)
    refine ⟨sc, by simp only [actTry, a1, b1, c1], by simp only [actAll, a1, b1, c1], c2,
      a4.congr fun d => c5 _ d h1, c4, (b4.congr fun d => a5 _ d h2.symm).congr fun d => c5 _ d h3.symm,
      Value.congr (fun d => c5 _ d h1) a3, c3,
      argCongr sa sc (fun d => c5 _ d h3.symm) (argCongr sb sa (fun d => a5 _ d h2.symm) b3)⟩
  · obtain ⟨sc, c1, c2, c3, c4, c5⟩ := set_ok sh optindName t hs o2
    obtain ⟨sa, a1, a2, a3, a4, a5⟩ := set_ok sc name w c2 (o1.congr fun d => c5 _ d h1)
    obtain ⟨sb, b1, b2, b3, b4, b5⟩ := argOk sa a2
      ((o3.congr fun d => c5 _ d h3.symm).congr fun d => a5 _ d h2.symm)
    refine ⟨sb, by simp only [actTry, a1, b1, c1], by simp only [actAll, a1, b1, c1], b2,
      a4.congr fun d => b5 _ d h2, (c4.congr fun d => a5 _ d h1.symm).congr fun d => b5 _ d h3, b4,
      Value.congr (fun d => b5 _ d h2) a3,
      (Value.congr (fun d => a5 _ d h1.symm) c3).congr fun d => b5 _ d h3, b3⟩

end Yash.Getopts
