import Verif.Shopt.Forms
/-! # Options: what the arguments of `set` do (C61) -/
set_option autoImplicit false

namespace Yash.Shopt

open Spec

theorem gives_ne {W : World} {starting posix : Bool} {args : List Str} {o : Opt} {b : Bool} (h : Gives W starting posix args o b) (rest : List Str) :
    args ++ rest ≠ ["+o".toList] := by
  intro he
  cases h with
  | separate on h => simp at he
  | joined on h =>
    have := denotes_ne_nil h
    simp at he
    exact this he.1.2
  | long on h hp hn =>
    have := denotes_ne_nil h
    simp at he
    exact this he.1.2.2
  | letter _ ho h =>
    have := (table_letter o ho _ h).2.1
    simp at he
    exact this he.1.2
  | inverse on ho h =>
    have := (table_inverse o ho _ h).2.2.1
    simp at he
    exact this he.1.2

/-- However an option is given to `set`, it is turned on or off, nothing else changes except for the option that it excludes, and the arguments after it are
looked at in the same way. -/
theorem set_option_given {W : World} (hW : Letters W) {s : State} {args : List Str} {o : Opt} {b : Bool} (h : Gives W false (s.val .posixlycorrect) args o b)
    (hr : o.resettable = true) (hm : o.var = .monitor → b = true → W.tty = true) :
    ∃ s', Changed s s' (turned s.val o.var b) ∧ setBuiltin W args s = some ([], .success, s') ∧
      ∀ rest, rest ≠ ["+o".toList] → setBuiltin W (args ++ rest) s = setBuiltin W rest s' := by
  obtain ⟨s', h1, h2⟩ := setShellOption_ok (W := W) (inv := none) (b := b) (s := s) (fun _ => hr) fun _ => hm
  have key : ∀ rest, parseOptions W none (args ++ rest) s = parseOptions W none rest s' := by
    intro rest
    rw [parseOptions_gives (inv := none) hW h, h1]
    rfl
  refine ⟨s', h2, ?_, fun rest hne => ?_⟩
  · have h3 := gives_ne h []
    have h4 := key []
    rw [List.append_nil] at h3 h4
    rw [setBuiltin, if_neg h3, h4]
    rfl
  · rw [setBuiltin, if_neg (gives_ne h rest), key, setBuiltin, if_neg hne]

/-- An option that can only be given when the shell is started is refused. -/
theorem set_option_refused {W : World} (hW : Letters W) {s : State} {args : List Str} {o : Opt} {b : Bool} (h : Gives W false (s.val .posixlycorrect) args o b)
    (hr : o.var ∈ fixed) (rest : List Str) : setBuiltin W (args ++ rest) s = some ([], .error, s) := by
  have ho : o ∈ shellOptions := by
    cases h with
    | separate _ h => exact h.elim (·.1) (·.2.1.1)
    | joined _ h => exact h.elim (·.1) (·.2.1.1)
    | long _ h => exact h.elim (·.1) (·.2.1.1)
    | letter _ ho => exact ho
    | inverse _ ho => exact ho
  have : ∀ o ∈ shellOptions, o.var ∈ fixed → o.resettable = false := by decide +kernel
  have h1 : setShellOption W none o b s = (.error, none, s) := by simp [setShellOption, this o ho hr]
  rw [setBuiltin, if_neg (gives_ne h rest), parseOptions_gives (inv := none) hW h, h1]
  rfl

/-- When the shell is started, every option can be given. -/
theorem start_option_given {W : World} (hW : Letters W) {s : State} {args : List Str} {o : Opt} {b : Bool} (i : Invocation)
    (h : Gives W true (s.val .posixlycorrect) args o b) :
    ∃ i' s', Changed s s' (turned s.val o.var b) ∧ ∀ rest, parseOptions W (some i) (args ++ rest) s = parseOptions W (some i') rest s' := by
  obtain ⟨s', h1, h2⟩ := setShellOption_ok (W := W) (inv := some i) (b := b) (s := s) (o := o) (by intro h; cases h) (by intro h; cases h)
  refine ⟨Invocation.note o.var i, s', h2, fun rest => ?_⟩
  rw [parseOptions_gives (inv := some i) hW h, h1]
  rfl

/-- A name that stands for no option is an error. -/
theorem collect_none {W : World} {name : Str} (h : ∀ o neg, ¬Denotes W name o neg) : (collect W name).1.length ≠ 1 := by
  intro h1
  have h2 := collect_index W name
  match hc : collect W name, h1, h2 with
  | ([o], i), _, h2 =>
    simp only [List.length_cons, List.length_nil, Nat.zero_add] at h2
    have : i = 0 ∨ i = 1 := by omega
    rcases this with rfl | rfl
    · exact h o true (collect_iff.2 hc)
    · exact h o false (collect_iff.2 hc)

theorem handleResult_error {W : World} {inv : Option Invocation} {l : List Opt} (h : l.length ≠ 1) (on : Bool) {i : Nat} (hi : i ≤ l.length) (arg : Str) (rest : List Str) (s : State) :
    handleResult W inv l [] on i l.length arg rest s = some ((.error, inv, s), rest) := by
  match l, h with
  | [], _ => rw [handleResult, if_pos (by simpa using hi)]
  | _ :: _ :: _, _ => rw [handleResult, if_pos (by simpa using hi)] <;> simp

theorem set_unknown_option {W : World} (hW : Letters W) {name : Str} (hn : ∀ o neg, ¬Denotes W name o neg) (on : Bool) (rest : List Str) (s : State) :
    setBuiltin W ([sign on, 'o'] :: name :: rest) s = some ([], .error, s) ∧
    (name ≠ [] → setBuiltin W ((sign on :: 'o' :: name) :: rest) s = some ([], .error, s)) ∧
    (name ≠ [] → (s.val .posixlycorrect = true ∨ (on = true → ∀ w ∈ otherWords false, ¬name.takeWhile (· ≠ '=') <+: w)) →
      setBuiltin W ((sign on :: sign on :: name) :: rest) s = some ([], .error, s)) := by
  have hs := o_ne_sign on
  have hc := collect_none hn
  have hi := collect_index W name
  refine ⟨?_, fun hne => ?_, fun hne hw => ?_⟩
  · rw [setBuiltin, if_neg (by simp), parseOptions_arg W none on 'o' [] (fun h => hs h.1), parseArg, if_neg (by simpa using hs), parseShort_sep, handleResult_error hc on hi]
    rfl
  · rw [setBuiltin, if_neg (by simp [hne]), parseOptions_arg W none on 'o' name (fun h => hs h.1), parseArg, if_neg (by simpa using hs)]
    cases name with
    | nil => exact absurd rfl hne
    | cons d ds =>
      rw [parseShort_join, handleResult_error hc on hi]
      rfl
  · have hn' : ∀ o neg, ¬Denotes W (sign on :: sign on :: name) o neg := by
      intro o neg
      unfold Denotes
      rw [plainName_sign hW]
      exact hn o neg
    rw [setBuiltin, if_neg (by simp [hne]), parseOptions_arg W none on _ name (fun h => hne h.2), parseArg, if_pos (by rfl), parseLong]
    split
    · rfl
    · rename_i hp
      have hw := hw.resolve_left hp
      have hc' := collect_none hn'
      have hi' := collect_index W (sign on :: sign on :: name)
      dsimp only
      cases on with
      | false =>
        rw [if_neg (by simp), handleResult_error hc' false hi']
        rfl
      | true =>
        have := searchNormal_nil (posix := s.val .posixlycorrect) (inv := none) (name := name) (hw rfl)
        simp only [if_true, List.drop_succ_cons, List.drop_zero, this, Bool.false_eq_true, if_false]
        rw [handleResult_error hc' true hi']
        rfl

/-- Several letters after one sign are the same as each of them after a sign. -/
theorem set_letters (W : World) (on : Bool) {c d : Char} (hc : c ≠ 'o') (h1 : c ≠ sign on) (h2 : d ≠ sign on) (ds : Str) (rest : List Str) (s : State) :
    setBuiltin W ((sign on :: c :: d :: ds) :: rest) s = setBuiltin W ([sign on, c] :: (sign on :: d :: ds) :: rest) s := by
  rw [setBuiltin, if_neg (by simp), setBuiltin, if_neg (by simp [hc]), parseOptions_arg W none on c _ (fun h => h1 h.1), parseOptions_arg W none on c _ (fun h => h1 h.1),
    parseArg, if_neg (by simpa using h1), parseArg, if_neg (by simpa using h1), parseShort_char _ _ _ hc, parseShort_char _ _ _ hc]
  cases parseChar W none c on s with
  | none => rfl
  | some r =>
    obtain ⟨st, inv, s1⟩ := r
    have hnil : ∀ inv s, parseShort W inv on [] ((sign on :: d :: ds) :: rest) s = some ((.success, inv, s), (sign on :: d :: ds) :: rest) := fun _ _ => rfl
    simp only [Option.bind_some, hnil]
    by_cases hst : st = .success
    · simp only [hst, if_true, Option.bind_some]
      rw [parseOptions_arg W inv on d ds (fun h => h2 h.1), parseArg, if_neg (by simpa using h2)]
    · simp only [hst, if_false, Option.bind_some]
      rfl

/-- `test -o` and the like: whether an option is on. -/
theorem option_tested {W : World} {s : State} {name : Str} {b : Bool} : testOption W s name = some b ↔ ∃ o neg, Denotes W name o neg ∧ b = (s.val o.var != neg) := by
  unfold testOption
  constructor
  · intro h
    split at h
    · rename_i o i hc
      have hi := collect_index W name
      rw [hc] at hi
      simp only [List.length_cons, List.length_nil, Nat.zero_add] at hi
      cases h
      have : i = 0 ∨ i = 1 := by omega
      rcases this with rfl | rfl
      · exact ⟨o, true, collect_iff.2 hc, rfl⟩
      · exact ⟨o, false, collect_iff.2 hc, rfl⟩
    · cases h
  · rintro ⟨o, neg, h, rfl⟩
    rw [collect_iff.1 h]
    cases neg <;> rfl

/-- A letter is in `$-` if and only if giving the option with this letter changes nothing. -/
theorem hyphen_letter {W : World} {starting posix : Bool} {s : State} {c : Char} {o : Opt} {b : Bool} (h : Gives W starting posix [['-', c]] o b) :
    c ∈ hyphen s ↔ turned s.val o.var b = s.val := by
  have table : (∀ o ∈ shellOptions, ∀ c ∈ o.enable.toList, rival o.var = none ∧ ∀ p ∈ shellOptions, (p.enable = some c → p = o) ∧ p.disable ≠ some c) ∧
      (∀ o ∈ shellOptions, ∀ c ∈ o.disable.toList, rival o.var = none ∧ ∀ p ∈ shellOptions, (p.disable = some c → p = o) ∧ p.enable ≠ some c) := by decide +kernel
  have hmem : c ∈ hyphen s ↔ ∃ p ∈ shellOptions, (p.enable = some c ∧ s.val p.var = true) ∨ (p.disable = some c ∧ s.val p.var = false) := by
    unfold hyphen
    rw [List.mem_flatMap]
    refine exists_congr fun p => and_congr_right fun _ => ?_
    rw [List.mem_append]
    refine or_congr ?_ ?_
    · cases p.enable <;> cases s.val p.var <;> simp [eq_comm]
    · cases p.disable <;> cases s.val p.var <;> simp [eq_comm]
  have hturn : rival o.var = none → (turned s.val o.var b = s.val ↔ s.val o.var = b) := by
    intro hr
    constructor
    · intro h
      rw [← h]
      simp [turned]
    · intro h
      funext w
      simp only [turned, hr]
      split
      · rename_i hw; rw [hw, h]
      · simp
  generalize ha : [['-', c]] = args at h
  cases h with
  | separate on h => simp at ha
  | joined on h =>
    simp at ha
    exact absurd ha.2.2 (denotes_ne_nil h)
  | long on h hp hn =>
    simp at ha
    exact absurd ha.2.2 (denotes_ne_nil h)
  | letter on ho h =>
    rename_i d
    have hc : d = c := by simp at ha; exact ha.2.symm
    have hb : b = true := by cases b <;> simp [sign] at ha ⊢
    subst hc hb
    obtain ⟨h1, h2⟩ := table.1 o ho d (by simp [h])
    rw [hturn h1, hmem]
    constructor
    · rintro ⟨p, hp, h3 | h3⟩
      · rw [← (h2 p hp).1 h3.1]; exact h3.2
      · exact absurd h3.1 (h2 p hp).2
    · intro h3
      exact ⟨o, ho, .inl ⟨h, h3⟩⟩
  | inverse on ho h =>
    rename_i d
    have hc : d = c := by simp at ha; exact ha.2.symm
    have hb : on = true := by cases on <;> simp [sign] at ha ⊢
    subst hc hb
    obtain ⟨h1, h2⟩ := table.2 o ho d (by simp [h])
    rw [hturn h1, hmem]
    constructor
    · rintro ⟨p, hp, h3 | h3⟩
      · exact absurd h3.1 (h2 p hp).2
      · rw [← (h2 p hp).1 h3.1]; exact h3.2
    · intro h3
      exact ⟨o, ho, .inr ⟨h, h3⟩⟩

end Yash.Shopt
