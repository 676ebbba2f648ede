import Verif.Shopt.Props
/-! # Options: the ways in which they are given -/
set_option autoImplicit false

namespace Yash.Shopt

open Spec

/-- What follows after an argument. -/
def next (W : World) (fuel : Nat) : Res × List Str → Option (Res × List Str)
  | ((st, inv, s), rest) => if st = .success then parseLoop W fuel inv rest s else some ((st, inv, s), rest)

theorem parseLoop_arg (W : World) (fuel : Nat) (inv : Option Invocation) (on : Bool) (d : Char) (ds : Str) (h : ¬(d = sign on ∧ ds = [])) (rest : List Str) (s : State) :
    parseLoop W (fuel + 1) inv ((sign on :: d :: ds) :: rest) s = (parseArg W inv on (sign on) (d :: ds) rest s).bind (next W fuel) := by
  cases on
  · have h' : ¬(d = '+' && ds.isEmpty) = true := by simpa [sign] using h
    simp only [parseLoop, sign, Bool.false_eq_true, if_false, if_neg h']
    rfl
  · have h' : ¬(d = '-' && ds.isEmpty) = true := by simpa [sign] using h
    simp only [parseLoop, sign, if_true, if_neg h']
    rfl

theorem parseArg_rest {W : World} {inv : Option Invocation} {on : Bool} {c : Char} {cs : Str} {rest rest' : List Str} {s : State} {r : Res}
    (h : parseArg W inv on c cs rest s = some (r, rest')) : ∃ p, rest = p ++ rest' := by
  unfold parseArg at h
  split at h
  · exact (parseLong_steps h).2.2
  · exact (parseShort_steps h).2.2

/-- The fuel does not matter if there is enough of it. -/
theorem parseLoop_fuel (W : World) : ∀ (n m : Nat) (inv : Option Invocation) (args : List Str) (s : State), args.length < n → args.length < m →
    parseLoop W n inv args s = parseLoop W m inv args s := by
  intro n
  induction n with
  | zero => intro m inv args s h; omega
  | succ n ih =>
    intro m inv args s hn hm
    obtain ⟨m, rfl⟩ : ∃ k, m = k + 1 := ⟨m - 1, by omega⟩
    cases args with
    | nil => rfl
    | cons arg rest =>
      simp only [List.length_cons] at hn hm
      have key : ∀ (on : Bool) (d : Char) (ds : Str), arg = sign on :: d :: ds → parseLoop W (n + 1) inv (arg :: rest) s = parseLoop W (m + 1) inv (arg :: rest) s := by
        rintro on d ds rfl
        by_cases hd : d = sign on ∧ ds = []
        · obtain ⟨rfl, rfl⟩ := hd
          cases on <;> simp [parseLoop, sign]
        · rw [parseLoop_arg W n inv on d ds hd, parseLoop_arg W m inv on d ds hd]
          cases hp : parseArg W inv on (sign on) (d :: ds) rest s with
          | none => rfl
          | some x =>
            obtain ⟨⟨st, inv1, s1⟩, rest1⟩ := x
            obtain ⟨p, h⟩ := parseArg_rest hp
            have hl : rest.length = p.length + rest1.length := by rw [h, List.length_append]
            simp only [Option.bind_some, next]
            split
            · exact ih m inv1 rest1 s1 (by omega) (by omega)
            · rfl
      cases arg with
      | nil => rfl
      | cons c cs =>
        by_cases h1 : c = '-'
        · subst h1
          cases cs with
          | nil => rfl
          | cons d ds => exact key true d ds rfl
        · by_cases h2 : c = '+'
          · subst h2
            cases cs with
            | nil => rfl
            | cons d ds => exact key false d ds rfl
          · simp only [parseLoop]
            split <;> simp_all

theorem parseOptions_arg (W : World) (inv : Option Invocation) (on : Bool) (d : Char) (ds : Str) (h : ¬(d = sign on ∧ ds = [])) (rest : List Str) (s : State) :
    parseOptions W inv ((sign on :: d :: ds) :: rest) s =
      (parseArg W inv on (sign on) (d :: ds) rest s).bind fun ((st, inv, s), rest) =>
        if st = .success then parseOptions W inv rest s else some ((st, inv, s), rest) := by
  rw [parseOptions, parseLoop_arg W _ inv on d ds h]
  cases hp : parseArg W inv on (sign on) (d :: ds) rest s with
  | none => rfl
  | some x =>
    obtain ⟨⟨st, inv1, s1⟩, rest1⟩ := x
    obtain ⟨p, h⟩ := parseArg_rest hp
    have hl : rest.length = p.length + rest1.length := by rw [h, List.length_append]
    simp only [Option.bind_some, next]
    split
    · exact parseLoop_fuel W _ _ inv1 rest1 s1 (by simp only [List.length_cons]; omega) (by omega)
    · rfl

theorem handleResult_one (W : World) (inv : Option Invocation) (o : Opt) (on neg : Bool) (arg : Str) (rest : List Str) (s : State) :
    handleResult W inv [o] [] on (if neg then 0 else 1) 1 arg rest s = some (setShellOption W inv o (on != neg) s, rest) := by
  cases neg <;> cases on <;> rfl

theorem denotes_ne_nil {W : World} {name : Str} {o : Opt} {neg : Bool} (h : Denotes W name o neg) : name ≠ [] := by
  rintro rfl
  rw [collect_iff] at h
  have : (collect W []).1.length = 45 := by rfl
  rw [h] at this
  cases this

theorem plainName_sign {W : World} (hW : Letters W) (on : Bool) (name : Str) : plainName W (sign on :: sign on :: name) = plainName W name := by
  cases on <;> simp [plainName, sign, hW.minus, hW.plus]

theorem searchNormal_nil {posix : Bool} {inv : Option Invocation} {name : Str} (h : ∀ w ∈ otherWords inv.isSome, ¬name.takeWhile (· ≠ '=') <+: w) :
    searchNormal posix inv name normalOptions = (false, []) := by
  have key : ∀ l : List NormalOpt, (∀ o ∈ l, (inv.isSome || o.forSet) = true → o.name ∈ otherWords inv.isSome) → searchNormal posix inv name l = (false, []) := by
    intro l
    induction l with
    | nil => intro _; rfl
    | cons o l ih =>
      intro hl
      have ih := ih fun x hx => hl x (by simp [hx])
      rw [searchNormal, ih]
      split
      · rfl
      · rw [if_neg]
        intro hb
        rw [Bool.and_eq_true, List.isPrefixOf_iff_prefix] at hb
        exact h _ (hl o (by simp) hb.2) hb.1
  refine key _ ?_
  cases inv.isSome
  · decide +kernel
  · decide +kernel

theorem table_letter : ∀ o ∈ shellOptions, ∀ c, o.enable = some c → shellOptions.find? (fun p => p.enable = some c || p.disable = some c) = some o ∧ c ≠ 'o' ∧ c ≠ '-' ∧ c ≠ '+' := by
  have : ∀ o ∈ shellOptions, ∀ c ∈ o.enable.toList, shellOptions.find? (fun p => p.enable = some c || p.disable = some c) = some o ∧ c ≠ 'o' ∧ c ≠ '-' ∧ c ≠ '+' := by decide +kernel
  intro o ho c hc
  exact this o ho c (by simp [hc])

theorem table_inverse : ∀ o ∈ shellOptions, ∀ c, o.disable = some c →
    shellOptions.find? (fun p => p.enable = some c || p.disable = some c) = some o ∧ o.enable ≠ some c ∧ c ≠ 'o' ∧ c ≠ '-' ∧ c ≠ '+' := by
  have : ∀ o ∈ shellOptions, ∀ c ∈ o.disable.toList,
      shellOptions.find? (fun p => p.enable = some c || p.disable = some c) = some o ∧ o.enable ≠ some c ∧ c ≠ 'o' ∧ c ≠ '-' ∧ c ≠ '+' := by decide +kernel
  intro o ho c hc
  exact this o ho c (by simp [hc])

theorem o_ne_sign (on : Bool) : 'o' ≠ sign on := by cases on <;> decide

theorem ne_sign {c : Char} (h1 : c ≠ '-') (h2 : c ≠ '+') (on : Bool) : c ≠ sign on := by cases on <;> assumption

theorem parseShort_sep (W : World) (inv : Option Invocation) (on : Bool) (name : Str) (rest : List Str) (s : State) :
    parseShort W inv on ['o'] (name :: rest) s = handleResult W inv (collect W name).1 [] on (collect W name).2 (collect W name).1.length name rest s := by
  simp [parseShort]

theorem parseShort_join (W : World) (inv : Option Invocation) (on : Bool) (d : Char) (ds : Str) (rest : List Str) (s : State) :
    parseShort W inv on ('o' :: d :: ds) rest s =
      handleResult W inv (collect W (d :: ds)).1 [] on (collect W (d :: ds)).2 (collect W (d :: ds)).1.length (d :: ds) rest s := by
  simp [parseShort]

theorem parseShort_char (W : World) (inv : Option Invocation) (on : Bool) {c : Char} (hc : c ≠ 'o') (cs : Str) (rest : List Str) (s : State) :
    parseShort W inv on (c :: cs) rest s =
      (parseChar W inv c on s).bind fun (st, inv', s') => if st = .success then parseShort W inv' on cs rest s' else some ((st, inv', s'), rest) := by
  simp only [parseShort, if_neg hc]
  rfl

theorem parseShort_one {W : World} {inv : Option Invocation} {on : Bool} {c : Char} {rest : List Str} {s : State} {r : Res} (hc : c ≠ 'o') (h : parseChar W inv c on s = some r) :
    parseShort W inv on [c] rest s = some (r, rest) := by
  obtain ⟨st, inv1, s1⟩ := r
  rw [parseShort_char _ _ _ hc, h]
  simp only [Option.bind_some, parseShort]
  split
  · rename_i h; rw [h]
  · rfl

/-- However an option is given, it is set, and then the arguments after it are looked at if that succeeds. -/
theorem parseOptions_gives {W : World} (hW : Letters W) {inv : Option Invocation} {s : State} {args : List Str} {o : Opt} {b : Bool}
    (h : Gives W inv.isSome (s.val .posixlycorrect) args o b) (rest : List Str) :
    parseOptions W inv (args ++ rest) s =
      (match setShellOption W inv o b s with
      | (st, inv, s) => if st = .success then parseOptions W inv rest s else some ((st, inv, s), rest)) := by
  have hs := o_ne_sign
  cases h with
  | separate on h =>
    rw [List.cons_append, List.cons_append, List.nil_append, parseOptions_arg W inv on 'o' [] (fun h => hs on h.1), parseArg, if_neg (by simpa using hs on), parseShort_sep]
    simp only [collect_iff.1 h, List.length_cons, List.length_nil, Nat.zero_add, handleResult_one, Option.bind_some]
  | joined on h =>
    rename_i name neg
    rw [List.cons_append, List.nil_append, parseOptions_arg W inv on 'o' _ (fun h => hs on h.1), parseArg, if_neg (by simpa using hs on)]
    cases name with
    | nil => exact absurd rfl (denotes_ne_nil h)
    | cons d ds => simp only [parseShort_join]; simp only [collect_iff.1 h, List.length_cons, List.length_nil, Nat.zero_add, handleResult_one, Option.bind_some]
  | long on h hp hn =>
    rename_i name neg
    rw [List.cons_append, List.nil_append, parseOptions_arg W inv on _ _ (fun hd => denotes_ne_nil h hd.2), parseArg, if_pos (by rfl), parseLong, if_neg (by simp [hp])]
    have h' : Denotes W (sign on :: sign on :: name) o neg := by
      unfold Denotes
      rw [plainName_sign hW]
      exact h
    cases on with
    | false => simp only [Bool.false_eq_true, if_false, collect_iff.1 h', List.length_cons, List.length_nil, Nat.zero_add, handleResult_one, Option.bind_some]
    | true =>
      simp only [if_true, collect_iff.1 h', List.drop_succ_cons, List.drop_zero, searchNormal_nil (hn rfl), Bool.false_eq_true, if_false, List.length_cons, List.length_nil, Nat.zero_add,
        handleResult_one, Option.bind_some]
  | letter _ ho h =>
    rename_i c
    obtain ⟨h1, h2, h3, h4⟩ := table_letter o ho c h
    have h5 := ne_sign h3 h4 b
    rw [List.cons_append, List.nil_append, parseOptions_arg W inv b c [] (fun h => h5 h.1), parseArg, if_neg (by simpa using h5),
      parseShort_one h2 (by rw [parseChar, h1]), Option.bind_some, if_pos h]
  | inverse on ho h =>
    rename_i c
    obtain ⟨h1, h0, h2, h3, h4⟩ := table_inverse o ho c h
    have h5 := ne_sign h3 h4 on
    rw [List.cons_append, List.nil_append, parseOptions_arg W inv on c [] (fun h => h5 h.1), parseArg, if_neg (by simpa using h5),
      parseShort_one h2 (by rw [parseChar, h1]), Option.bind_some, if_neg h0]

end Yash.Shopt
