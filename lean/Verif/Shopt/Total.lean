import Verif.Shopt.Set
/-! # Options: no assertion fails -/
set_option autoImplicit false

namespace Yash.Shopt

open Spec

theorem handleResult_shell (W : World) (inv : Option Invocation) (l : List Opt) (on : Bool) {i : Nat} (hi : i ≤ l.length) (arg : Str) (rest : List Str) (s : State) :
    (handleResult W inv l [] on i l.length arg rest s).isSome = true := by
  by_cases h : l.length = 1
  · match l, h with
    | [o], _ => simp at hi; simp [handleResult, hi]
  · rw [handleResult_error h on hi]
    rfl

theorem setNormalOption_total {inv : Option Invocation} {o : NormalOpt} (ho : o ∈ normalOptions) (hi : (inv.isSome || o.forSet) = true) {arg : Option Str} (ha : o.required = true → arg.isSome = true)
    (s : State) : (setNormalOption inv o.which arg s).isSome = true := by
  have h1 : ∀ o ∈ normalOptions, o.forSet = true → o.which = .help := by decide +kernel
  have h2 : ∀ o ∈ normalOptions, o.which = .profile ∨ o.which = .rcfile → o.required = true := by decide +kernel
  cases inv with
  | none => simp [setNormalOption, h1 o ho (by simpa using hi)]
  | some i =>
    have h2 := h2 o ho
    unfold setNormalOption
    cases hw : o.which with
    | profile => simp [ha (h2 (.inl hw))]
    | rcfile => simp [ha (h2 (.inr hw))]
    | _ => rfl

theorem parseChar_total (W : World) (inv : Option Invocation) (c : Char) (on : Bool) (s : State) : (parseChar W inv c on s).isSome = true := by
  unfold parseChar
  split
  · rfl
  · split
    · rename_i o ho
      have h1 := List.find?_some ho
      have h2 := List.mem_of_find?_eq_some ho
      simp only [Bool.and_eq_true, decide_eq_true_eq] at h1
      have h3 : ∀ o ∈ normalOptions, o.required = true → o.short = '-' := by decide +kernel
      refine setNormalOption_total h2 h1.2 (fun hr => ?_) s
      have := h3 o h2 hr
      rw [h1.1.2] at this
      exact absurd this h1.1.1.1
    · rfl

theorem parseShort_total (W : World) (on : Bool) : ∀ (cs : Str) (inv : Option Invocation) (rest : List Str) (s : State), (parseShort W inv on cs rest s).isSome = true := by
  intro cs
  induction cs with
  | nil => intro inv rest s; rfl
  | cons c cs ih =>
    intro inv rest s
    by_cases hc : c = 'o'
    · subst hc
      cases cs with
      | nil =>
        cases rest with
        | nil => simp [parseShort]
        | cons name rest =>
          rw [parseShort_sep]
          exact handleResult_shell W inv _ on (collect_index W name) _ _ _
      | cons d ds =>
        rw [parseShort_join]
        exact handleResult_shell W inv _ on (collect_index W _) _ _ _
    · rw [parseShort_char W inv on hc]
      have := parseChar_total W inv c on s
      cases hp : parseChar W inv c on s with
      | none => rw [hp] at this; cases this
      | some r =>
        obtain ⟨st, inv1, s1⟩ := r
        simp only [Option.bind_some]
        split
        · exact ih _ _ _
        · rfl

theorem searchNormal_forSet {posix : Bool} {inv : Option Invocation} {name : Str} : ∀ (l : List NormalOpt), ∀ o ∈ (searchNormal posix inv name l).2, (inv.isSome || o.forSet) = true := by
  intro l
  induction l with
  | nil => intro o ho; cases ho
  | cons p l ih =>
    intro o ho
    simp only [searchNormal] at ho
    split at ho
    · exact ih o ho
    · split at ho
      · rename_i hp
        have hp := (Bool.and_eq_true _ _ ▸ hp).2
        split at ho
        · simp only [List.mem_singleton] at ho
          rw [ho]; exact hp
        · split at ho
          · exact ih o ho
          · rcases List.mem_cons.1 ho with rfl | ho
            · exact hp
            · exact ih o ho
      · exact ih o ho

theorem searchNormal_cleared {posix : Bool} {inv : Option Invocation} {name : Str} : ∀ (l : List NormalOpt), (searchNormal posix inv name l).1 = true →
    ∃ o ∈ l, o.name = name.takeWhile (· ≠ '=') := by
  intro l
  induction l with
  | nil => intro h; cases h
  | cons p l ih =>
    intro h
    simp only [searchNormal] at h
    split at h
    · obtain ⟨o, h1, h2⟩ := ih h; exact ⟨o, .tail _ h1, h2⟩
    · split at h
      · split at h
        · rename_i hp; exact ⟨p, .head _, hp⟩
        · obtain ⟨o, h1, h2⟩ := ih h; exact ⟨o, .tail _ h1, h2⟩
      · obtain ⟨o, h1, h2⟩ := ih h; exact ⟨o, .tail _ h1, h2⟩

/-- A word with which no name of an option begins, and no name of an option with `no` in front of it. -/
theorem collect_nil {W : World} {name w r : Str} (hp : plainName W name = w ++ r) (h1 : ∀ o ∈ shellOptions, w.isPrefixOf o.name = false) (h2 : ∀ o ∈ shellOptions, w.isPrefixOf ('n' :: 'o' :: o.name) = false)
    : (collect W name).1 = [] := by
  have ha : ∀ p b, ¬Abbreviates (plainName W name) p b := by
    rintro p b ⟨hp', m, rest, h3, h4⟩
    rw [hp] at h3
    cases b with
    | false =>
      have := h1 p hp'
      simp only [Bool.false_eq_true, if_false, List.nil_append] at h3
      rw [← Bool.not_eq_true, List.isPrefixOf_iff_prefix] at this
      exact this ⟨r ++ rest, by rw [← List.append_assoc, h3, h4]⟩
    | true =>
      have := h2 p hp'
      rw [← Bool.not_eq_true, List.isPrefixOf_iff_prefix] at this
      simp only [if_true] at h3
      exact this ⟨r ++ rest, by rw [← List.append_assoc, h3, h4]; rfl⟩
  have hf : ∀ p b, ¬Full (plainName W name) p b := by
    rintro p b ⟨h3, h4⟩
    exact ha p b ⟨h3, p.name, [], h4, by simp⟩
  rw [List.eq_nil_iff_forall_not_mem]
  intro o ho
  rw [collect_abbr hf] at ho
  rcases List.mem_append.1 ho with ho | ho
  · exact ha o false (mem_positives.1 ho)
  · exact ha o true (mem_negatives.1 ho)

theorem plainName_word {W : World} (hW : Letters W) {w : Str} (hw : ∀ c ∈ w, 'a' ≤ c ∧ c ≤ 'z') (r : Str) : plainName W (w ++ r) = w ++ plainName W r := by
  induction w with
  | nil => rfl
  | cons c w ih =>
    have hc := hw c (by simp)
    have ih := ih fun x hx => hw x (by simp [hx])
    unfold plainName at ih ⊢
    rw [List.cons_append, List.filterMap_cons, if_pos (hW.alnum c hc.1 hc.2), hW.lower c hc.1 hc.2, ih]
    rfl

theorem handleResult_normal {W : World} {inv : Option Invocation} {n : List NormalOpt} (hn : ∀ o ∈ n, o ∈ normalOptions ∧ (inv.isSome || o.forSet) = true) (l : List Opt) (on : Bool) {i k : Nat}
    (hi : i ≤ k) (hk : k = l.length ∨ (k = 0 ∧ l = [])) (arg : Str) (rest : List Str) (s : State) : (handleResult W inv l n on i k arg rest s).isSome = true := by
  have hk : k = l.length := by
    rcases hk with h | ⟨rfl, rfl⟩
    · exact h
    · rfl
  subst hk
  cases n with
  | nil => exact handleResult_shell W inv l on hi arg rest s
  | cons o n =>
    have hif : (decide (i ≤ l.length) && decide (l.length ≤ l.length + (o :: n).length)) = true := by simp [hi]
    unfold handleResult
    rw [if_pos hif]
    cases l with
    | cons _ _ => split <;> simp_all
    | nil =>
      cases n with
      | cons _ _ => rfl
      | nil =>
        obtain ⟨h1, h2⟩ := hn o (by simp)
        simp only [List.length_nil, Nat.lt_irrefl, gt_iff_lt, if_false]
        split
        · split
          · rfl
          · rw [Option.isSome_map]
            exact setNormalOption_total h1 h2 (fun _ => rfl) s
        · rw [Option.isSome_map]
          exact setNormalOption_total h1 h2 (fun _ => rfl) s
        · rename_i h
          rw [Option.isSome_map]
          refine setNormalOption_total h1 h2 (fun hr => ?_) s
          rw [h] at hr
          cases hr
        · rfl

theorem parseLong_total {W : World} (hW : Letters W) (inv : Option Invocation) (on : Bool) (name : Str) (rest : List Str) (s : State) :
    (parseLong W inv on (sign on :: sign on :: name) rest s).isSome = true := by
  unfold parseLong
  split
  · rfl
  · dsimp only
    split
    · have hn : ∀ o ∈ (searchNormal (s.val .posixlycorrect) inv name normalOptions).2, o ∈ normalOptions ∧ (inv.isSome || o.forSet) = true :=
        fun o ho => ⟨searchNormal_mem _ _ _ _ o ho, searchNormal_forSet _ o ho⟩
      rw [show (sign on :: sign on :: name).drop 2 = name from rfl]
      refine handleResult_normal hn _ on (collect_index W _) ?_ _ _ _
      split
      · rename_i hcl
        obtain ⟨o, h1, h2⟩ := searchNormal_cleared _ hcl
        have hw : ∀ o ∈ normalOptions, ∀ c ∈ o.name, 'a' ≤ c ∧ c ≤ 'z' := by decide +kernel
        have h3 : ∀ n ∈ normalOptions, (∀ o ∈ shellOptions, n.name.isPrefixOf o.name = false) ∧ (∀ o ∈ shellOptions, n.name.isPrefixOf ('n' :: 'o' :: o.name) = false) := by decide +kernel
        have h4 : (collect W (sign on :: sign on :: name)).1 = [] := by
          refine collect_nil (w := o.name) (r := plainName W (name.dropWhile (· ≠ '='))) ?_ (h3 o h1).1 (h3 o h1).2
          rw [plainName_sign hW, ← plainName_word hW (hw o h1), h2, List.takeWhile_append_dropWhile]
        exact .inr ⟨by rw [h4]; rfl, rfl⟩
      · exact .inl rfl
    · exact handleResult_shell W inv _ on (collect_index W _) _ _ _

/-- Whatever the arguments are, parsing them comes to an end without a failed assertion or reading arguments that do not exist. -/
theorem options_parsed {W : World} (hW : Letters W) (inv : Option Invocation) (args : List Str) (s : State) : (parseOptions W inv args s).isSome = true := by
  have key : ∀ (n : Nat) (inv : Option Invocation) (args : List Str) (s : State), args.length < n → (parseLoop W n inv args s).isSome = true := by
    intro n
    induction n with
    | zero => intro inv args s h; omega
    | succ n ih =>
      intro inv args s h
      cases args with
      | nil => rfl
      | cons arg rest =>
        simp only [List.length_cons] at h
        have key : ∀ (on : Bool) (d : Char) (ds : Str), arg = sign on :: d :: ds → (parseLoop W (n + 1) inv (arg :: rest) s).isSome = true := by
          rintro on d ds rfl
          by_cases hd : d = sign on ∧ ds = []
          · obtain ⟨rfl, rfl⟩ := hd
            cases on <;> simp [parseLoop, sign]
          · rw [parseLoop_arg W n inv on d ds hd]
            have hsome : (parseArg W inv on (sign on) (d :: ds) rest s).isSome = true := by
              unfold parseArg
              split
              · rename_i hh
                have : d = sign on := by simpa using hh
                subst this
                exact parseLong_total hW inv on ds rest s
              · exact parseShort_total W on _ _ _ _
            cases hp : parseArg W inv on (sign on) (d :: ds) rest s with
            | none => rw [hp] at hsome; cases hsome
            | some x =>
              obtain ⟨⟨st, inv1, s1⟩, rest1⟩ := x
              obtain ⟨p, h⟩ := parseArg_rest hp
              have hl : rest.length = p.length + rest1.length := by rw [h, List.length_append]
              simp only [Option.bind_some, next]
              split
              · exact ih inv1 rest1 s1 (by omega)
              · rfl
        cases arg with
        | nil => simp [parseLoop]
        | cons c cs =>
          by_cases h1 : c = '-'
          · subst h1
            cases cs with
            | nil => simp only [parseLoop]; (repeat' split) <;> rfl
            | cons d ds => exact key true d ds rfl
          · by_cases h2 : c = '+'
            · subst h2
              cases cs with
              | nil => simp [parseLoop]
              | cons d ds => exact key false d ds rfl
            · simp only [parseLoop]
              split <;> simp_all
  exact key _ inv args s (by omega)

theorem set_total {W : World} (hW : Letters W) (args : List Str) (s : State) : (setBuiltin W args s).isSome = true := by
  unfold setBuiltin
  split
  · rfl
  · rw [Option.isSome_map]
    exact options_parsed hW none args s

end Yash.Shopt
