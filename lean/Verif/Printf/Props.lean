import Verif.Printf.EchoProps
import Verif.Printf.Passes
/-!
# C68: what printf prints
-/
set_option autoImplicit false

namespace Yash.Printf

open Spec

theorem uses_good {ps : List Piece} (h : ∀ p ∈ ps, Good p) (args : List (List Char)) :
    ∀ u ∈ uses ps args, Good u.1 := by
  have : ∀ (i : Nat) (ps : List Piece), (∀ p ∈ ps, Good p) →
      ∀ u ∈ withOperands args i ps, Good u.1 := by
    intro i ps
    induction ps generalizing i with
    | nil => simp [withOperands]
    | cons p ps ih =>
      intro h u hu
      cases p with
      | text b =>
        simp only [withOperands, List.mem_cons] at hu
        rcases hu with rfl | hu
        · trivial
        · exact ih i (fun p hp => h p (by simp [hp])) u hu
      | conv f w p l =>
        simp only [withOperands, List.mem_cons] at hu
        rcases hu with rfl | hu
        · exact h _ (by simp)
        · exact ih (i + 1) (fun p hp => h p (by simp [hp])) u hu
  intro u hu
  obtain ⟨r, _, hu⟩ := List.mem_flatMap.mp hu
  exact this _ ps h u hu

theorem printf_outcome {F : Type} (lib : Lib F) (format : List Char) (ps : List Piece)
    (hf : Format lib.enc format ps) (args : List (List Char))
    (hc : ∀ u ∈ uses ps args, NoEmptyChar u) :
    printf lib (format :: args) =
      match outcome lib (uses ps args) with
      | none => ⟨[], 1⟩
      | some (out, valid) => ⟨out, if valid then 0 else 1⟩ := by
  obtain ⟨items, h1, h2⟩ := parseFormat_complete lib format ps hf []
  have h3 : ∀ args, pass lib items args = pass lib (ps.map toItem) args := by
    intro args
    rw [h2, pass_raw]
    cases pass lib (ps.map toItem) args <;> simp
  simp only [printf, h1]
  rw [passes_congr lib items _ h3, passes_outcome lib ps args hc]
  cases outcome lib (uses ps args) <;> rfl

/-- **C68** (partial): printf prints the format as often as needed for all operands, at least once;
the conversion specifications take the operands in order, and those without an operand print an
empty string or zero.  Nothing is printed after a `\c` in an operand of `%b`.  The exit status tells
whether all numbers are valid.

Full statement: the same without the hypothesis `hc`.  It is false: see `C68_empty_operand_lost`. -/
theorem C68_printf_partial {F : Type} (lib : Lib F) (format : List Char) (ps : List Piece)
    (hf : Format lib.enc format ps) (args : List (List Char))
    (hc : ∀ f w p, (Piece.conv f w p 'c', some []) ∉ uses ps args)
    (out : List Byte) (valid : Bool) (ho : Outcome lib (uses ps args) out valid) :
    printf lib (format :: args) = ⟨out, if valid then 0 else 1⟩ := by
  have hc' : ∀ u ∈ uses ps args, NoEmptyChar u := by
    intro u hu f w p h1 h2
    exact hc f w p (by rw [← h1, ← h2]; exact hu)
  rw [printf_outcome lib format ps hf args hc',
    (outcome_iff lib _ (uses_good (format_good hf) args) out valid).mp ho]

/-- **C68** (partial): if the C library cannot format one of the values, nothing is printed. -/
theorem C68_fails_partial {F : Type} (lib : Lib F) (format : List Char) (ps : List Piece)
    (hf : Format lib.enc format ps) (args : List (List Char))
    (hc : ∀ f w p, (Piece.conv f w p 'c', some []) ∉ uses ps args)
    (ho : ¬ ∃ out valid, Outcome lib (uses ps args) out valid) :
    printf lib (format :: args) = ⟨[], 1⟩ := by
  have hc' : ∀ u ∈ uses ps args, NoEmptyChar u := by
    intro u hu f w p h1 h2
    exact hc f w p (by rw [← h1, ← h2]; exact hu)
  rw [printf_outcome lib format ps hf args hc']
  cases h : outcome lib (uses ps args) with
  | none => rfl
  | some r =>
    exact absurd ⟨r.1, r.2, (outcome_iff lib _ (uses_good (format_good hf) args) _ _).mpr h⟩ ho

/-- **C68**: for a format that is not valid, nothing is printed. -/
theorem C68_bad_format {F : Type} (lib : Lib F) (format : List Char)
    (hf : ¬ ∃ ps, Format lib.enc format ps) (args : List (List Char)) :
    printf lib (format :: args) = ⟨[], 1⟩ := by
  have : parseFormat lib.enc [] format = none := by
    cases h : parseFormat lib.enc [] format with
    | none => rfl
    | some items => exact absurd (parseFormat_sound lib format [] items h) hf
  simp [printf, this]

/-- There is only one outcome. -/
theorem C68_determined {F : Type} (lib : Lib F) (enc : Char → Option (List Byte))
    (format : List Char) (ps : List Piece) (hf : Format enc format ps) (args : List (List Char))
    (o1 o2 : List Byte) (v1 v2 : Bool) (h1 : Outcome lib (uses ps args) o1 v1)
    (h2 : Outcome lib (uses ps args) o2 v2) : o1 = o2 ∧ v1 = v2 := by
  rw [outcome_iff lib _ (uses_good (format_good hf) args)] at h1 h2
  rw [h1] at h2
  cases h2
  exact ⟨rfl, rfl⟩

/-! ## Every operand is used once -/

theorem withOperands_filter (args : List (List Char)) (i : Nat) (ps : List Piece) :
    (withOperands args i ps).filterMap Prod.snd = (args.drop i).take (convs ps) := by
  induction ps generalizing i with
  | nil => simp [withOperands, convs]
  | cons p ps ih =>
    cases p with
    | text b =>
      simp only [withOperands, List.filterMap_cons, ih]
      rfl
    | conv f w p l =>
      have hconv : convs (.conv f w p l :: ps) = convs ps + 1 := by simp [convs]
      rw [hconv]
      simp only [withOperands, List.filterMap_cons, ih]
      cases h : args[i]? with
      | none =>
        have : args.length ≤ i := by simpa using h
        rw [List.drop_eq_nil_of_le this, List.drop_eq_nil_of_le (by omega)]
        simp
      | some a =>
        have hlt : i < args.length := (List.getElem?_eq_some_iff.mp h).1
        have hget : args[i] = a := (List.getElem?_eq_some_iff.mp h).2
        rw [List.drop_eq_getElem_cons hlt, List.take_succ_cons, hget]

theorem chunks (args : List (List Char)) (k n : Nat) :
    ((List.range n).map fun r => (args.drop (r * k)).take k).flatten = args.take (n * k) := by
  induction n with
  | zero => simp
  | succ n ih =>
    rw [List.range_succ, List.map_append, List.flatten_append, ih, Nat.add_mul, Nat.one_mul]
    simp only [List.map_cons, List.map_nil, List.flatten_cons, List.flatten_nil, List.append_nil]
    rw [List.take_add]

/-- **C68**: if a format has conversion specifications, they are given every operand, each once and
in order. -/
theorem C68_every_operand_once (ps : List Piece) (args : List (List Char)) (h : convs ps ≠ 0) :
    (uses ps args).filterMap Prod.snd = args := by
  have e : (uses ps args).filterMap Prod.snd =
      ((List.range (rounds ps args.length)).map fun r =>
        (args.drop (r * convs ps)).take (convs ps)).flatten := by
    unfold uses
    rw [List.filterMap_flatMap, List.flatMap_def]
    simp only [withOperands_filter]
  rw [e, chunks, List.take_of_length_le]
  unfold rounds
  rw [if_neg h]
  have hk : 0 < convs ps := by omega
  have h1 := Nat.div_add_mod (args.length + convs ps - 1) (convs ps)
  have h2 := Nat.mod_lt (args.length + convs ps - 1) hk
  have h3 : (args.length + convs ps - 1) / convs ps * convs ps ≤
      max 1 ((args.length + convs ps - 1) / convs ps) * convs ps :=
    Nat.mul_le_mul_right _ (Nat.le_max_right _ _)
  rw [Nat.mul_comm] at h1
  omega

/-! ## Text printed as it is -/

/-- A text in a format: every backslash and every percent sign is doubled. -/
def quotedFormat (s : List Char) : List Char :=
  s.flatMap fun c => if c = '\\' then ['\\', '\\'] else if c = '%' then ['%', '%'] else [c]

theorem format_quoted {enc : Char → Option (List Byte)} (hp : enc '%' = some [37])
    (hb : enc '\\' = some [92]) {s : List Char} {out : List Byte} (h : Literal enc s out) :
    ∃ ps, Format enc (quotedFormat s) ps ∧ (∀ p ∈ ps, ∃ b, p = .text b) ∧
      (ps.flatMap fun p => match p with | .text b => b | .conv .. => []) = out := by
  induction h with
  | nil => exact ⟨[], .nil, by simp, rfl⟩
  | cons c s b out hc _ ih =>
    obtain ⟨ps, h1, h2, h3⟩ := ih
    have mem : ∀ b, ∀ p ∈ Piece.text b :: ps, ∃ b, p = .text b := by
      intro b p hp
      rcases List.mem_cons.mp hp with rfl | hp
      · exact ⟨b, rfl⟩
      · exact h2 p hp
    unfold quotedFormat
    rw [List.flatMap_cons]
    split
    · rename_i hbs
      subst hbs
      rw [hb] at hc
      cases hc
      exact ⟨_, .control '\\' 92 _ ps (by decide) h1, mem _, by simp [h3]⟩
    · split
      · rename_i hps
        subst hps
        rw [hp] at hc
        cases hc
        exact ⟨_, .percent _ ps h1, mem _, by simp [h3]⟩
      · rename_i n1 n2
        exact ⟨_, .plain c _ b ps n2 n1 hc h1, mem _, by simp [h3]⟩

/-- **C68**: every text can be printed exactly, by doubling its backslashes and percent signs. -/
theorem C68_literal {F : Type} (lib : Lib F) (hp : lib.enc '%' = some [37])
    (hb : lib.enc '\\' = some [92]) (s : List Char) (out : List Byte)
    (h : Literal lib.enc s out) : printf lib [quotedFormat s] = ⟨out, 0⟩ := by
  obtain ⟨ps, h1, h2, h3⟩ := format_quoted hp hb h
  have hu : ∀ ps : List Piece, (∀ p ∈ ps, ∃ b, p = .text b) → ∀ i,
      withOperands [] i ps = ps.map fun p => (p, none) := by
    intro ps
    induction ps with
    | nil => intro _ _; rfl
    | cons p ps ih =>
      intro h i
      obtain ⟨b, rfl⟩ := h p (by simp)
      simp [withOperands, ih (fun p hp => h p (by simp [hp]))]
  have hk : convs ps = 0 := by
    unfold convs
    rw [List.length_eq_zero_iff, List.filter_eq_nil_iff]
    intro p hp
    obtain ⟨b, rfl⟩ := h2 p hp
    simp
  have huses : uses ps [] = ps.map fun p => (p, none) := by
    simp [uses, rounds, hk, hu ps h2]
  have ho : ∀ ps : List Piece, (∀ p ∈ ps, ∃ b, p = .text b) →
      Outcome lib (ps.map fun p => (p, none))
        (ps.flatMap fun p => match p with | .text b => b | .conv .. => []) true := by
    intro ps
    induction ps with
    | nil => intro _; exact .nil
    | cons p ps ih =>
      intro h
      obtain ⟨b, rfl⟩ := h p (by simp)
      exact .cons _ _ _ _ _ true true (.text b none) (ih fun p hp => h p (by simp [hp]))
  have := C68_printf_partial lib (quotedFormat s) ps h1 [] ?_ out true ?_
  · simpa using this
  · intro f w p hm
    rw [huses] at hm
    simp at hm
  · rw [huses, ← h3]
    exact ho ps h2

/-- The outcome for several operands and the format `%s\n`. -/
theorem lines_outcome {F : Type} (lib : Lib F)
    (hs : ∀ s out, Literal lib.enc s out → lib.format ['%', 'l', 's'] (.str s) = some out)
    (args : List (List Char)) (outs : List (List Byte)) (hl : args.length = outs.length)
    (h : ∀ (i : Nat) (a : List Char) (o : List Byte), args[i]? = some a → outs[i]? = some o →
      Literal lib.enc a o) (n r : Nat) (hn : r + n = args.length) :
    Outcome lib
      ((List.range' r n).flatMap fun r =>
        withOperands args (r * 1) [.conv [] [] [] 's', .text [10]])
      ((outs.drop r).flatMap fun o => o ++ [10]) true := by
  induction n generalizing r with
  | zero =>
    rw [List.drop_eq_nil_of_le (by omega)]
    exact .nil
  | succ n ih =>
    have hr : r < args.length := by omega
    have hr' : r < outs.length := by omega
    have e1 : args[r]? = some args[r] := by simp [hr]
    have e2 : outs[r]? = some outs[r] := by simp [hr']
    have hlit := h r _ _ e1 e2
    rw [List.range'_succ, List.flatMap_cons, List.drop_eq_getElem_cons hr', List.flatMap_cons]
    simp only [withOperands, Nat.mul_one, e1, List.cons_append, List.nil_append]
    rw [List.append_assoc]
    refine .cons _ _ _ outs[r] _ true true ?_ (.cons _ _ _ [10] _ true true (.text _ _) ?_)
    · exact .string [] [] [] _ _ (hs _ _ hlit)
    · have := ih (r + 1) (by omega)
      simpa [withOperands] using this

/-- **C68**: `printf '%s\n'` prints every operand, as it is, on a line. -/
theorem C68_lines {F : Type} (lib : Lib F)
    (hs : ∀ s out, Literal lib.enc s out → lib.format ['%', 'l', 's'] (.str s) = some out)
    (args : List (List Char)) (h0 : args ≠ []) (outs : List (List Byte))
    (hl : args.length = outs.length)
    (h : ∀ (i : Nat) (a : List Char) (o : List Byte), args[i]? = some a → outs[i]? = some o →
      Literal lib.enc a o) :
    printf lib ("%s\\n".toList :: args) = ⟨outs.flatMap fun o => o ++ [10], 0⟩ := by
  have hf : Format lib.enc "%s\\n".toList [.conv [] [] [] 's', .text [10]] :=
    .conv [] [] [] 's' _ _ (by simp) (by simp) (by simp) (.inl rfl)
      (.inr (.inr ⟨by decide, by simp, by simp⟩))
      (.control 'n' 10 [] [] (by decide) .nil)
  have hlen : 0 < args.length := List.length_pos_iff.mpr h0
  have hr : rounds [.conv [] [] [] 's', .text [10]] args.length = args.length := by
    have hk : convs [.conv [] [] [] 's', .text [10]] = 1 := rfl
    rw [rounds, hk, if_neg (by decide), Nat.div_one]
    omega
  have huses : uses [.conv [] [] [] 's', .text [10]] args =
      (List.range' 0 args.length).flatMap fun r =>
        withOperands args (r * 1) [.conv [] [] [] 's', .text [10]] := by
    rw [uses, hr, List.range_eq_range']
    rfl
  have ho := lines_outcome lib hs args outs hl h args.length 0 (by omega)
  rw [← huses, List.drop_zero] at ho
  have := C68_printf_partial lib _ _ hf args ?_ _ true ho
  · simpa using this
  · intro f w p hm
    rw [huses] at hm
    obtain ⟨r, _, hm⟩ := List.mem_flatMap.mp hm
    simp [withOperands] at hm

/-! ## Where the manual is not followed -/

/-- A C library for the examples: it only knows `%s`, `%c` and `%d` without flags, and small
decimal numbers. -/
def exampleLib (enc : Char → Option (List Byte)) : Lib Unit where
  enc := enc
  imax s := (Int.ofNat (decimalValue (s.takeWhile (· ∈ digits))), s.dropWhile (· ∈ digits), false)
  umax s := (decimalValue (s.takeWhile (· ∈ digits)), s.dropWhile (· ∈ digits), false)
  float s := ((), s, true)
  format spec v :=
    match v with
    | .str s => if spec = ['%', 'l', 's'] then wcscat enc s else none
    | .chr c => if spec = ['%', 'l', 'c'] then enc c else none
    | .int n => if spec = ['%', 'j', 'd'] then wcscat enc (toString n).toList else none
    | _ => none

/-- The full statement of C68 is false: `printf '%c' '' a` prints nothing.  The empty operand is not
taken, so it looks as if the format used no operands; the manual says that all values are
consumed. -/
theorem C68_empty_operand_lost :
    Format (exampleLib ascii).enc "%c".toList [.conv [] [] [] 'c'] ∧
    Outcome (exampleLib ascii) (uses [.conv [] [] [] 'c'] [[], ['a']]) [97] true ∧
    printf (exampleLib ascii) ["%c".toList, [], ['a']] = ⟨[], 0⟩ := by
  refine ⟨?_, ?_, by decide +kernel⟩
  · exact .conv [] [] [] 'c' [] [] (by simp) (by simp) (by simp) (.inl rfl)
      (.inr (.inr ⟨by decide, by simp, by simp⟩)) .nil
  · exact .cons _ _ _ [] [97] true true (.noChar _ _ _ _ (.inr rfl))
      (.cons _ _ _ [97] [] true true (.char _ _ _ 'a' [] [97] rfl) .nil)

/-- UTF-8 for characters of one or two bytes. -/
def shortUtf8 (c : Char) : Option (List Byte) :=
  if c.toNat < 128 then some [UInt8.ofNat c.toNat]
  else if c.toNat < 2048 then
    some [UInt8.ofNat (192 + c.toNat / 64), UInt8.ofNat (128 + c.toNat % 64)]
  else none

/-- `printf '%.1b' é` prints only the first of the two bytes of the character, though the manual says
that yash never does that. -/
theorem C68_character_cut :
    printf (exampleLib shortUtf8) ["%.1b".toList, ['é']] = ⟨[0xc3], 0⟩ ∧
      shortUtf8 'é' = some [0xc3, 0xa9] := by
  constructor <;> decide +kernel

/-! ## Examples -/

-- `printf '%s=%d\n' a 1 b`
example : printf (exampleLib ascii) ["%s=%d\\n".toList, ['a'], ['1'], ['b']] =
    ⟨[97, 61, 49, 10, 98, 61, 48, 10], 0⟩ := by decide +kernel
-- `printf '%d' x`
example : printf (exampleLib ascii) ["%d".toList, ['x']] = ⟨[48], 1⟩ := by decide +kernel
-- `printf '%d' "'A"`
example : printf (exampleLib ascii) ["%d".toList, ['\'', 'A']] = ⟨[54, 53], 0⟩ := by decide +kernel
-- `printf '%-4b|%b' 'a\0102' 'c\cd' e`
example : printf (exampleLib ascii) ["%-4b|%b".toList, "a\\0102".toList, "c\\cd".toList, ['e']] =
    ⟨[97, 66, 32, 32, 124, 99], 0⟩ := by decide +kernel

/-- `C68_printf_partial` applies: `printf '%s=%d\n' a 1 b`. -/
example : printf (exampleLib ascii) ["%s=%d\\n".toList, ['a'], ['1'], ['b']] =
    ⟨[97, 61, 49, 10, 98, 61, 48, 10], 0⟩ :=
  C68_printf_partial (exampleLib ascii) "%s=%d\\n".toList
    [.conv [] [] [] 's', .text [61], .conv [] [] [] 'd', .text [10]]
    (.conv [] [] [] 's' _ _ (by simp) (by simp) (by simp) (.inl rfl)
      (.inr (.inr ⟨by decide, by simp, by simp⟩))
      (.plain '=' _ [61] _ (by decide) (by decide) rfl
        (.conv [] [] [] 'd' _ _ (by simp) (by simp) (by simp) (.inl rfl)
          (.inr (.inl ⟨by decide, by simp⟩)) (.control 'n' 10 [] [] (by decide) .nil))))
    [['a'], ['1'], ['b']] (by intro f w p h; revert h; simp [uses, rounds, convs, withOperands, List.range_succ])
    [97, 61, 49, 10, 98, 61, 48, 10] true
    (.cons _ _ _ [97] _ true true (.string _ _ _ _ _ (by decide +kernel))
      (.cons _ _ _ [61] _ true true (.text _ _)
        (.cons _ _ _ [49] _ true true
          (.signed _ _ _ 'd' _ 1 true [49] (by decide)
            (.number ['1'] 1 [] false (by simp) (by decide +kernel)) (by decide +kernel))
          (.cons _ _ _ [10] _ true true (.text _ _)
            (.cons _ _ _ [98] _ true true (.string _ _ _ _ _ (by decide +kernel))
              (.cons _ _ _ [61] _ true true (.text _ _)
                (.cons _ _ _ [48] _ true true
                  (.signed _ _ _ 'd' _ 0 true [48] (by decide)
                    (.missing 0 [] false (by decide +kernel)) (by decide +kernel))
                  (.cons _ _ _ [10] [] true true (.text _ _) .nil))))))))

/-- `C68_bad_format` applies: a percent sign at the end. -/
example : printf (exampleLib ascii) [['%']] = ⟨[], 1⟩ :=
  C68_bad_format (exampleLib ascii) ['%'] (by
    rintro ⟨ps, h⟩
    obtain ⟨items, h, _⟩ := parseFormat_complete (exampleLib ascii) _ ps h []
    rw [show parseFormat (exampleLib ascii).enc [] ['%'] = none from by decide +kernel] at h
    cases h) []

/-- `C68_fails_partial` applies: a string with a character that cannot be printed. -/
example : printf (exampleLib ascii) ["%s".toList, ['é']] = ⟨[], 1⟩ :=
  C68_fails_partial (exampleLib ascii) "%s".toList [.conv [] [] [] 's']
    (.conv [] [] [] 's' _ _ (by simp) (by simp) (by simp) (.inl rfl)
      (.inr (.inr ⟨by decide, by simp, by simp⟩)) .nil)
    [['é']] (by intro f w p h; revert h; simp [uses, rounds, convs, withOperands, List.range_succ]) (by
    rintro ⟨out, valid, h⟩
    rw [outcome_iff _ _ (uses_good (format_good (.conv (enc := ascii) [] [] [] 's' _ _ (by simp) (by simp) (by simp)
      (.inl rfl) (.inr (.inr ⟨by decide, by simp, by simp⟩)) .nil)) _)] at h
    revert h
    rw [show outcome (exampleLib ascii) (uses [.conv [] [] [] 's'] [['é']]) = none from by decide +kernel]
    simp)

/-- `C68_every_operand_once` applies. -/
example : (uses [.conv [] [] [] 's', .conv [] [] [] 'd'] [['a'], ['1'], ['b']]).filterMap Prod.snd =
    [['a'], ['1'], ['b']] := C68_every_operand_once _ _ (by decide)

/-- `C68_literal` applies: `50%\`. -/
example : printf (exampleLib ascii) [quotedFormat ['5', '%', '\\']] = ⟨[53, 37, 92], 0⟩ :=
  C68_literal (exampleLib ascii) rfl rfl _ _
    (.cons _ _ [53] _ rfl (.cons _ _ [37] _ rfl (.cons _ _ [92] _ rfl .nil)))

/-- `C68_lines` applies. -/
example : printf (exampleLib ascii) ["%s\\n".toList, ['a'], [], ['%']] = ⟨[97, 10, 10, 37, 10], 0⟩ :=
  C68_lines (exampleLib ascii)
    (fun s out h => by simp only [exampleLib, if_true]; exact (wcscat_iff _ _ _).mpr h)
    [['a'], [], ['%']] (by simp) [[97], [], [37]] rfl (by
      intro i a o h1 h2
      match i with
      | 0 => simp at h1 h2; subst h1; subst h2; exact .cons _ _ [97] _ rfl .nil
      | 1 => simp at h1 h2; subst h1; subst h2; exact .nil
      | 2 => simp at h1 h2; subst h1; subst h2; exact .cons _ _ [37] _ rfl .nil
      | n + 3 => simp at h1)

end Yash.Printf
