import Verif.Printf.Escape
/-!
# C67: what echo prints
-/
set_option autoImplicit false

namespace Yash.Printf

open Spec

theorem echoOne_iff (enc : Char → Option (List Byte)) (escape : Bool) (a : List Char)
    (out : List Byte) (e : Bool) :
    echoOne enc escape a = some (out, e) ↔ EchoText enc escape [a] out e := by
  unfold echoOne EchoText joined
  cases escape
  · simp only [Bool.false_eq_true, if_false, Option.map_eq_some_iff, Prod.mk.injEq]
    constructor
    · rintro ⟨b, hb, rfl, rfl⟩
      exact ⟨(wcscat_iff _ _ _).mp hb, rfl⟩
    · rintro ⟨hb, rfl⟩
      exact ⟨out, (wcscat_iff _ _ _).mpr hb, rfl, rfl⟩
  · simp only [if_true]
    exact echoParseEscape_iff enc a out e

theorem joined_cons (a b : List Char) (args : List (List Char)) :
    joined (a :: b :: args) = a ++ ' ' :: joined (b :: args) := rfl

/-- The operands may be printed one by one. -/
theorem echoLoop_iff (enc : Char → Option (List Byte)) (escape : Bool) (args : List (List Char))
    (out : List Byte) (e : Bool) :
    echoLoop enc escape args = some (out, e) ↔ EchoText enc escape args out e := by
  induction args generalizing out e with
  | nil =>
    unfold echoLoop EchoText joined
    cases escape
    · simp only [Option.some.injEq, Prod.mk.injEq, Bool.false_eq_true, if_false]
      constructor
      · rintro ⟨rfl, rfl⟩
        exact ⟨.nil, rfl⟩
      · rintro ⟨h, rfl⟩
        cases h
        exact ⟨rfl, rfl⟩
    · simp only [Option.some.injEq, Prod.mk.injEq, if_true]
      constructor
      · rintro ⟨rfl, rfl⟩
        exact .nil
      · intro h
        cases h
        exact ⟨rfl, rfl⟩
  | cons a args ih =>
    cases args with
    | nil => exact echoOne_iff enc escape a out e
    | cons b args =>
      rw [echoLoop]
      constructor
      · intro h
        split at h
        · cases h
        · rename_i o ho
          cases h
          have h1 := (echoOne_iff _ _ _ _ _).mp ho
          unfold EchoText at h1 ⊢
          cases escape
          · simp at h1
          · simp only [if_true, joined_cons] at h1 ⊢
            exact escaped_stop h1 _
        · rename_i o ho
          obtain ⟨x, y, hx, hy, rfl⟩ := (prepend_some _ _ _ _).mp h
          cases hx
          obtain ⟨sp, z, hsp, hz, rfl⟩ := (prepend_some _ _ _ _).mp hy
          have h1 := (echoOne_iff _ _ _ _ _).mp ho
          have h2 := (ih _ _).mp hz
          unfold EchoText at h1 h2 ⊢
          cases escape
          · simp only [Bool.false_eq_true, if_false, joined_cons] at h1 h2 ⊢
            exact ⟨literal_append h1.1 (.cons _ _ _ _ hsp h2.1), h2.2⟩
          · simp only [if_true, joined_cons] at h1 h2 ⊢
            exact escaped_space h1 hsp h2
      · intro h
        unfold EchoText at h
        cases escape
        · simp only [Bool.false_eq_true, if_false, joined_cons] at h
          obtain ⟨o1, o2, h1, h2, rfl⟩ := literal_split h.1
          cases h2 with
          | cons _ _ sp z hsp hz =>
            have e1 : echoOne enc false a = some (o1, false) :=
              (echoOne_iff _ _ _ _ _).mpr (by simp [EchoText, joined, h1])
            have e2 : echoLoop enc false (b :: args) = some (z, e) :=
              (ih _ _).mpr (by simp [EchoText, hz, h.2])
            rw [e1, e2, hsp]
            rfl
        · simp only [if_true, joined_cons] at h
          rcases escaped_split h with ⟨h1, rfl⟩ | ⟨o1, sp, o2, h1, hsp, h2, rfl⟩
          · have e1 : echoOne enc true a = some (out, true) :=
              (echoOne_iff _ _ _ _ _).mpr (by simp [EchoText, joined, h1])
            rw [e1]
          · have e1 : echoOne enc true a = some (o1, false) :=
              (echoOne_iff _ _ _ _ _).mpr (by simp [EchoText, joined, h1])
            have e2 : echoLoop enc true (b :: args) = some (o2, e) :=
              (ih _ _).mpr (by simp [EchoText, h2])
            rw [e1, e2, hsp]
            rfl

/-! ## Options -/

theorem lastE_append (d : Bool) (s t : List Char) : lastE d (s ++ t) = lastE (lastE d s) t := by
  unfold lastE
  rw [List.filter_append, List.getLast?_append]
  cases (t.filter fun c => c = 'e' || c = 'E').getLast? <;> simp

theorem echoLetters_eq (s : List Char) (h : ∀ c ∈ s, c = 'n' ∨ c = 'e' ∨ c = 'E')
    (n e : Bool) : echoLetters s (n, e) = (n || decide ('n' ∈ s), lastE e s) := by
  induction s generalizing n e with
  | nil => simp [echoLetters, lastE]
  | cons c s ih =>
    have hs := fun x hx => h x (List.mem_cons_of_mem c hx)
    rw [show c :: s = [c] ++ s from rfl, lastE_append]
    rcases h c (by simp) with rfl | rfl | rfl
    · simp only [List.singleton_append, echoLetters, ih hs]
      simp [lastE]
    · simp only [List.singleton_append, echoLetters, ih hs]
      simp [lastE]
    · simp only [List.singleton_append, echoLetters, ih hs]
      simp [lastE]

theorem isOption_iff (c : Char) (s : List Char) : IsOption ('-' :: c :: s) ↔
    (c :: s).all (fun c => c = 'n' || c = 'e' || c = 'E') = true := by
  unfold IsOption
  constructor
  · rintro ⟨ls, _, h, hall⟩
    cases h
    rw [List.all_eq_true]
    intro x hx
    simpa using or_assoc.mpr (hall x hx)
  · intro h
    refine ⟨c :: s, by simp, rfl, ?_⟩
    rw [List.all_eq_true] at h
    intro x hx
    have := h x hx
    simpa [or_assoc] using this

theorem echoOptions_spec (args : List (List Char)) (n e : Bool) :
    ∃ opts, args = opts ++ (echoOptions args (n, e)).2.2 ∧ (∀ w ∈ opts, IsOption w) ∧
      (∀ w ∈ (echoOptions args (n, e)).2.2.head?, ¬ IsOption w) ∧
      (echoOptions args (n, e)).1 = (n || decide ('n' ∈ opts.flatten)) ∧
      (echoOptions args (n, e)).2.1 = lastE e opts.flatten := by
  induction args generalizing n e with
  | nil => exact ⟨[], by simp [echoOptions], by simp, by simp [echoOptions],
      by simp [echoOptions], by simp [echoOptions, lastE]⟩
  | cons a args ih =>
    have other : echoOptions (a :: args) (n, e) = (n, e, a :: args) → ¬ IsOption a →
        ∃ opts, a :: args = opts ++ (echoOptions (a :: args) (n, e)).2.2 ∧
          (∀ w ∈ opts, IsOption w) ∧
          (∀ w ∈ (echoOptions (a :: args) (n, e)).2.2.head?, ¬ IsOption w) ∧
          (echoOptions (a :: args) (n, e)).1 = (n || decide ('n' ∈ opts.flatten)) ∧
          (echoOptions (a :: args) (n, e)).2.1 = lastE e opts.flatten := by
      intro h h'
      rw [h]
      exact ⟨[], rfl, by simp, by simpa using h', by simp, by simp [lastE]⟩
    rcases a with _ | ⟨c, _ | ⟨d, s⟩⟩
    · exact other rfl (by rintro ⟨ls, _, h, _⟩; cases h)
    · exact other (by rw [echoOptions]; intro _ _ _ h; cases h)
        (by rintro ⟨ls, h0, h, _⟩; cases h; exact h0 rfl)
    · by_cases hc : c = '-'
      · subst hc
        by_cases ho : IsOption ('-' :: d :: s)
        · have hall := (isOption_iff d s).mp ho
          have heq : echoOptions (('-' :: d :: s) :: args) (n, e) =
              echoOptions args (echoLetters (d :: s) (n, e)) := by
            rw [echoOptions, if_pos hall]
          have hl : ∀ x ∈ d :: s, x = 'n' ∨ x = 'e' ∨ x = 'E' := by
            obtain ⟨ls, _, h, hx⟩ := ho
            cases h
            exact hx
          rw [heq, echoLetters_eq _ hl]
          obtain ⟨opts, h1, h2, h3, h4, h5⟩ := ih (n || decide ('n' ∈ d :: s)) (lastE e (d :: s))
          refine ⟨('-' :: d :: s) :: opts, by rw [List.cons_append, ← h1], ?_, h3, ?_, ?_⟩
          · intro w hw
            rcases List.mem_cons.mp hw with h | h
            · rw [h]; exact ho
            · exact h2 w h
          · rw [h4]
            simp only [List.flatten_cons, List.mem_append, List.mem_cons, Bool.decide_or,
              Bool.or_assoc]
            simp
          · rw [h5, List.flatten_cons, lastE_append]
            congr 1
        · exact other (by
            rw [echoOptions, if_neg (fun h => ho ((isOption_iff d s).mpr h))]) ho
      · exact other (by
          rw [echoOptions]
          intro c' s' args' h
          cases h
          exact hc rfl) (by rintro ⟨ls, _, h, _⟩; cases h; exact hc rfl)

theorem split_unique (P : List Char → Prop) (a b c d : List (List Char)) (h : a ++ b = c ++ d)
    (ha : ∀ w ∈ a, P w) (hb : ∀ w ∈ b.head?, ¬ P w) (hc : ∀ w ∈ c, P w)
    (hd : ∀ w ∈ d.head?, ¬ P w) : a = c ∧ b = d := by
  induction a generalizing c with
  | nil =>
    cases c with
    | nil => exact ⟨rfl, h⟩
    | cons x c =>
      simp only [List.nil_append] at h
      subst h
      exact absurd (hc x (by simp)) (hb x (by simp))
  | cons x a ih =>
    cases c with
    | nil =>
      simp only [List.nil_append] at h
      subst h
      exact absurd (ha x (by simp)) (hd x (by simp))
    | cons y c =>
      simp only [List.cons_append, List.cons.injEq] at h
      obtain ⟨rfl, h⟩ := h
      obtain ⟨rfl, rfl⟩ := ih c h (fun w hw => ha w (by simp [hw])) (fun w hw => hc w (by simp [hw]))
      exact ⟨rfl, rfl⟩

/-- The options mean what the specification says. -/
theorem echoParse_iff (v : Option (List Char)) (args : List (List Char)) (n e : Bool)
    (ops : List (List Char)) :
    echoParse (echoStyle (v.bind List.head?)) args = (n, e, ops) ↔
      EchoArgs (style v).1 (style v).2 args n e ops := by
  have none' : ∀ d : Bool, echoParse (d, false, false) args = (n, e, ops) ↔
      EchoArgs .none d args n e ops := by
    intro d
    simp only [echoParse, EchoArgs, Bool.false_eq_true, if_false, Prod.mk.injEq]
    constructor
    · rintro ⟨rfl, rfl, rfl⟩; exact ⟨rfl, rfl, rfl⟩
    · rintro ⟨rfl, rfl, rfl⟩; exact ⟨rfl, rfl, rfl⟩
  have onlyN : ∀ d : Bool, echoParse (d, true, false) args = (n, e, ops) ↔
      EchoArgs .onlyN d args n e ops := by
    intro d
    simp only [echoParse, EchoArgs, Bool.false_eq_true, if_false, if_true]
    cases args with
    | nil =>
      simp only [Prod.mk.injEq]
      constructor
      · rintro ⟨rfl, rfl, rfl⟩; exact ⟨rfl, .inr ⟨rfl, by simp, rfl⟩⟩
      · rintro ⟨rfl, ⟨h, _⟩ | ⟨rfl, _, rfl⟩⟩
        · cases h
        · exact ⟨rfl, rfl, rfl⟩
    | cons a args =>
      by_cases ha : a = ['-', 'n']
      · subst ha
        simp only [if_true, Prod.mk.injEq, List.cons.injEq, true_and, List.head?_cons, ne_eq,
          not_true_eq_false, false_and, and_false, or_false]
        constructor
        · rintro ⟨rfl, rfl, rfl⟩; exact ⟨rfl, rfl, rfl⟩
        · rintro ⟨rfl, rfl, rfl⟩; exact ⟨rfl, rfl, rfl⟩
      · simp only [ha, if_false, Prod.mk.injEq, List.cons.injEq, false_and, List.head?_cons, ne_eq,
          Option.some.injEq, not_false_eq_true, true_and, false_or]
        constructor
        · rintro ⟨rfl, rfl, rfl⟩; exact ⟨rfl, rfl, rfl⟩
        · rintro ⟨rfl, rfl, rfl⟩; exact ⟨rfl, rfl, rfl⟩
  have all' : ∀ d : Bool, echoParse (d, true, true) args = (n, e, ops) ↔
      EchoArgs .all d args n e ops := by
    intro d
    simp only [echoParse, EchoArgs, if_true]
    obtain ⟨opts, h1, h2, h3, h4, h5⟩ := echoOptions_spec args false d
    constructor
    · intro h
      rw [h] at h1 h3 h4 h5
      exact ⟨opts, h1, h2, h3, by simp only at h4; rw [h4]; simp, h5⟩
    · rintro ⟨opts', h1', h2', h3', h4', h5'⟩
      obtain ⟨rfl, hops⟩ := split_unique IsOption _ _ _ _ (h1.symm.trans h1') h2 h3 h2' h3'
      have : (echoOptions args (false, d)).1 = n := by
        rw [h4]
        cases n
        · have : 'n' ∉ opts.flatten := fun h => by simpa using h4'.mpr h
          simp only [this, decide_false, Bool.or_false]
        · have : 'n' ∈ opts.flatten := h4'.mp rfl
          simp only [this, decide_true, Bool.or_true]
      rw [← this, ← hops, h5', ← h5]
  unfold echoStyle style
  cases hv : v.bind List.head? with
  | none => simpa using none' true
  | some c =>
    simp only [List.mem_cons, List.not_mem_nil, or_false, Option.some.injEq]
    split
    · rename_i h; cases h; simpa using onlyN false
    · rename_i h; cases h; simpa using onlyN false
    · rename_i h; cases h; simpa using all' false
    · rename_i h; cases h; simpa using all' false
    · rename_i h; cases h; simpa using all' true
    · rename_i h; cases h; simpa using all' true
    · rename_i h; cases h; simpa using onlyN true
    · rename_i h; cases h; simpa using onlyN true
    · rename_i h; cases h; simpa using none' false
    · rename_i h; cases h; simpa using none' false
    · rename_i h1 h2 h3 h4 h5 h6 h7 h8 h9 h10
      simp only [Option.some.injEq] at h1 h2 h3 h4 h5 h6 h7 h8 h9 h10
      rw [if_neg (fun h => h.elim h1 h2), if_neg (fun h => h.elim h3 h4),
        if_neg (fun h => h.elim h5 h6), if_neg (fun h => h.elim h7 h8),
        if_neg (fun h => h.elim h9 h10)]
      exact none' true

/-! ## The properties -/

/-- **C67**: echo prints its operands with a space between each two and a newline at the end, unless
the `-n` option is given or there is a `\c`; escapes are processed if they are enabled. -/
theorem C67_echo (enc : Char → Option (List Byte)) (v : Option (List Char))
    (args : List (List Char)) (noNewline escapes : Bool) (operands : List (List Char))
    (ha : EchoArgs (style v).1 (style v).2 args noNewline escapes operands)
    (out nl : List Byte) (stop : Bool) (ht : EchoText enc escapes operands out stop)
    (hnl : enc '\n' = some nl) :
    echo enc v args = ⟨if noNewline = true ∨ stop = true then out else out ++ nl, 0⟩ := by
  have hp := (echoParse_iff v args noNewline escapes operands).mpr ha
  have hl := (echoLoop_iff enc escapes operands out stop).mpr ht
  simp only [echo, hp, hl]
  cases stop
  · cases noNewline <;> simp [echoEnd, hnl]
  · simp [echoEnd]

/-- Arguments always have one meaning. -/
theorem C67_echo_args (o : Spec.Options) (d : Bool) (args : List (List Char)) :
    ∃ n e ops, EchoArgs o d args n e ops ∧
      ∀ n' e' ops', EchoArgs o d args n' e' ops' → n' = n ∧ e' = e ∧ ops' = ops := by
  -- a value of the variable for every set of options
  have : ∃ v, style v = (o, d) := by
    cases o <;> cases d
    · exact ⟨some ['R'], by decide⟩
    · exact ⟨none, by decide⟩
    · exact ⟨some ['B'], by decide⟩
    · exact ⟨some ['D'], by decide⟩
    · exact ⟨some ['G'], by decide⟩
    · exact ⟨some ['Z'], by decide⟩
  obtain ⟨v, hv⟩ := this
  have key := echoParse_iff v args
  rw [hv] at key
  generalize echoParse (echoStyle (v.bind List.head?)) args = r at key
  refine ⟨r.1, r.2.1, r.2.2, (key _ _ _).mp rfl, ?_⟩
  intro n' e' ops' h
  rw [(key _ _ _).mpr h]
  exact ⟨rfl, rfl, rfl⟩

/-- **C67**: if a character of the operands cannot be printed, nothing is printed. -/
theorem C67_echo_fails (enc : Char → Option (List Byte)) (v : Option (List Char))
    (args : List (List Char)) (noNewline escapes : Bool) (operands : List (List Char))
    (ha : EchoArgs (style v).1 (style v).2 args noNewline escapes operands)
    (ht : ¬ ∃ out stop, EchoText enc escapes operands out stop) :
    echo enc v args = ⟨[], 1⟩ := by
  have hp := (echoParse_iff v args noNewline escapes operands).mpr ha
  have hl : echoLoop enc escapes operands = none := by
    cases h : echoLoop enc escapes operands with
    | none => rfl
    | some r => exact absurd ⟨r.1, r.2, (echoLoop_iff _ _ _ _ _).mp h⟩ ht
  simp [echo, hp, hl, echoEnd]

/-- The text with every backslash doubled. -/
def doubled (s : List Char) : List Char := s.flatMap fun c => if c = '\\' then ['\\', '\\'] else [c]

theorem escaped_doubled {enc : Char → Option (List Byte)} {s : List Char} {out : List Byte}
    (h : Literal enc s out) : Escaped enc (doubled s) out false := by
  induction h with
  | nil => exact .nil
  | cons c s b out hb _ ih =>
    unfold doubled
    rw [List.flatMap_cons]
    split
    · rename_i hc
      subst hc
      exact .control '\\' 92 _ b out false (by decide) hb ih
    · rename_i hc
      exact .plain c _ b out false hc hb ih

/-- **C67**: every text can be printed exactly: with its backslashes doubled where escapes are
enabled, as it is where they are not. -/
theorem C67_echo_exact (enc : Char → Option (List Byte)) (v : Option (List Char)) (s : List Char)
    (out nl : List Byte) (hs : Literal enc s out) (hnl : enc '\n' = some nl)
    (ho : (style v).1 = .none) :
    echo enc v [if (style v).2 then doubled s else s] = ⟨out ++ nl, 0⟩ := by
  have ha : EchoArgs (style v).1 (style v).2 [if (style v).2 then doubled s else s] false
      (style v).2 [if (style v).2 then doubled s else s] := by
    rw [ho]; exact ⟨rfl, rfl, rfl⟩
  have := C67_echo enc v _ _ _ _ ha out nl false ?_ hnl
  · simpa using this
  · unfold EchoText
    split
    · exact escaped_doubled hs
    · exact ⟨hs, rfl⟩

/-- An encoding for the examples: ASCII. -/
def ascii (c : Char) : Option (List Byte) := if c.toNat < 128 then some [UInt8.ofNat c.toNat] else none

-- `echo 'a\tb' c`
example : echo ascii none ["a\\tb".toList, "c".toList] = ⟨[97, 9, 98, 32, 99, 10], 0⟩ := by decide +kernel
-- `echo 'a\c' b`
example : echo ascii none ["a\\c".toList, "b".toList] = ⟨[97], 0⟩ := by decide +kernel
-- `echo -n -eE '\t' -n` with `ECHO_STYLE=GNU`
example : echo ascii (some "GNU".toList) ["-n".toList, "-eE".toList, "\\t".toList, "-n".toList] =
    ⟨[92, 116, 32, 45, 110], 0⟩ := by decide +kernel

/-- `C67_echo` applies: the operands `a\0101` and `b` with the default style. -/
example : echo ascii none ["a\\0101".toList, "b".toList] = ⟨[97, 65, 32, 98, 10], 0⟩ :=
  C67_echo ascii none _ false true ["a\\0101".toList, "b".toList] ⟨rfl, rfl, rfl⟩ [97, 65, 32, 98] [10]
    false
    (.plain 'a' _ [97] _ _ (by decide) rfl
      (.octal ['1', '0', '1'] [' ', 'b'] [32, 98] false ⟨by decide, by decide, by decide⟩
        (.plain ' ' _ [32] _ _ (by decide) rfl (.plain 'b' _ [98] _ _ (by decide) rfl .nil)))) rfl

/-- `C67_echo_fails` applies: a character outside of ASCII. -/
example : echo ascii (some "RAW".toList) [['é']] = ⟨[], 1⟩ :=
  C67_echo_fails ascii _ _ false false [['é']] ⟨rfl, rfl, rfl⟩ (by
    rintro ⟨out, stop, h, _⟩
    cases h with
    | cons _ _ b o hb _ => cases hb)

/-- `C67_echo_exact` applies: a backslash and an `n`. -/
example : echo ascii none [doubled ['\\', 'n']] = ⟨[92, 110, 10], 0⟩ :=
  C67_echo_exact ascii none ['\\', 'n'] [92, 110] [10]
    (.cons _ _ [92] _ rfl (.cons _ _ [110] _ rfl .nil)) rfl rfl

end Yash.Printf
