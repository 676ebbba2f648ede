import Verif.Path.UmaskLemmas
/-!
# C32: the file mode creation mask
-/
set_option autoImplicit false

namespace Yash.Path

open Spec (Class Right Allowed place allowedBy WhoLetter Operator PermLetter Permission Clause Symbolic
  concerns designates granted)

theorem umaskCall_lt (m : Mode) : (umaskCall m).toNat < 512 := by
  unfold umaskCall allBits
  rw [BitVec.toNat_and]
  exact Nat.lt_of_le_of_lt Nat.and_le_right (by decide)

theorem umaskCall_id (m : Mode) (h : m.toNat < 512) : umaskCall m = m := by
  apply BitVec.eq_of_toNat_eq
  unfold umaskCall allBits
  rw [BitVec.toNat_and]
  show m.toNat &&& 511 = m.toNat
  rw [Nat.and_two_pow_sub_one_eq_mod m.toNat 9]
  exact Nat.mod_eq_of_lt h

theorem allowedBy_umaskCall (m : Mode) : allowedBy (umaskCall m) = allowedBy m := by
  funext c r
  unfold allowedBy umaskCall allBits
  rw [BitVec.getLsbD_and]
  cases c <;> cases r <;> simp [place]

/-- A mask is determined by the permissions that it allows. -/
theorem allowedBy_inj (m m' : Mode) (h : m.toNat < 512) (h' : m'.toNat < 512)
    (heq : allowedBy m = allowedBy m') : m = m' := by
  have high : ∀ (k : Mode) (i : Nat), k.toNat < 512 → 9 ≤ i → k.getLsbD i = false := by
    intro k i hk hi
    rw [BitVec.getLsbD]
    exact Nat.testBit_lt_two_pow (Nat.lt_of_lt_of_le (show k.toNat < 2 ^ 9 from hk)
      (Nat.pow_le_pow_right (by decide) hi))
  have low : ∀ c r, m.getLsbD (place c r) = m'.getLsbD (place c r) := by
    intro c r
    have := congrFun (congrFun heq c) r
    unfold allowedBy at this
    exact Bool.not_inj this
  apply BitVec.eq_of_getLsbD_eq
  intro i hi
  by_cases h9 : 9 ≤ i
  · rw [high m i h h9, high m' i h' h9]
  · have : i = 0 ∨ i = 1 ∨ i = 2 ∨ i = 3 ∨ i = 4 ∨ i = 5 ∨ i = 6 ∨ i = 7 ∨ i = 8 := by omega
    rcases this with rfl | rfl | rfl | rfl | rfl | rfl | rfl | rfl | rfl
    · exact low .others .exec
    · exact low .others .write
    · exact low .others .read
    · exact low .group .exec
    · exact low .group .write
    · exact low .group .read
    · exact low .owner .exec
    · exact low .owner .write
    · exact low .owner .read

theorem text_not_digit (s : Symbolic) : (s.text.head?.map isDigit).getD false = false := by
  rw [Symbolic.text, Clause.text]
  cases hw : s.first.who with
  | nil =>
    simp only [List.map_nil, List.nil_append, Spec.Action.text, List.cons_append, List.head?_cons,
      Option.map_some, Option.getD_some]
    cases s.first.first.op <;> decide
  | cons x l =>
    simp only [List.map_cons, List.cons_append, List.head?_cons, Option.map_some, Option.getD_some]
    cases x <;> decide

/-- **C32 (symbolic operand).**  `umask` accepts every symbolic operand, whatever the mask is, and
afterwards allows exactly the permissions that the operand means.  The mask has no other bits. -/
theorem C32_symbolic (mask : Mode) (s : Symbolic) :
    (setUmask mask s.text).2 = true ∧
    allowedBy (setUmask mask s.text).1 = s.meaning (allowedBy mask) ∧
    (setUmask mask s.text).1.toNat < 512 := by
  unfold setUmask
  rw [text_not_digit]
  simp only [Bool.false_eq_true, if_false]
  rw [symLoop_symbolic]
  refine ⟨rfl, ?_, umaskCall_lt _⟩
  rw [allowedBy_umaskCall, allowedBy_abs, BitVec.not_not, clauses_abs, Symbolic.meaning, allowedBy_abs]

/-- `umask u=rwx,g-w,o=` under the mask 0002: the text is as expected, and so is the result. -/
example :
    let s : Symbolic := ⟨⟨[.u], ⟨.set, .letters [.r, .w, .x]⟩, []⟩,
      [⟨[.g], ⟨.remove, .letters [.w]⟩, []⟩, ⟨[.o], ⟨.set, .letters []⟩, []⟩]⟩
    s.text = "u=rwx,g-w,o=".toList ∧ setUmask 0o002#32 s.text = (0o027#32, true) := by
  decide +kernel

/-- The number of octal digits as scanned. -/
theorem scanOctal_spec (s : List Char) (n : Nat) :
    (s.foldl (fun n c => n.bind fun n =>
      if '0' ≤ c ∧ c ≤ '7' then some (n * 8 + (c.toNat - '0'.toNat)) else none) (some n)) =
      (if (scanOctal s n).2 = [] then some (scanOctal s n).1 else none) := by
  induction s generalizing n with
  | nil => simp [scanOctal]
  | cons c s ih =>
    rw [List.foldl_cons, scanOctal]
    by_cases h : '0' ≤ c ∧ c ≤ '7'
    · rw [if_pos h, Option.bind_some, if_pos h]
      exact ih _
    · rw [if_neg h, Option.bind_some, if_neg h]
      simp only [reduceCtorEq, if_false]
      clear ih
      induction s with
      | nil => rfl
      | cons d s ih => rw [List.foldl_cons]; exact ih

/-- **C32 (octal operand).**  An operand that begins with a digit is an octal number: if it consists of
octal digits and is below `2^64`, its last nine bits become the mask; if not, `umask` fails and the mask
does not change. -/
theorem C32_octal (mask : Mode) (c : Char) (s : List Char) (hc : '0' ≤ c ∧ c ≤ '9') :
    (∀ n, Spec.octal (c :: s) = some n → n < 2 ^ 64 →
      (setUmask mask (c :: s)).2 = true ∧ (setUmask mask (c :: s)).1.toNat = n % 512) ∧
    ((∀ n, Spec.octal (c :: s) = some n → 2 ^ 64 ≤ n) → setUmask mask (c :: s) = (mask, false)) := by
  have hd : ((c :: s).head?.map isDigit).getD false = true := by
    have h1 : 48 ≤ c.toNat := hc.1
    have h2 : c.toNat ≤ 57 := hc.2
    simp [isDigit, h1, h2]
  have hspec : Spec.octal (c :: s) =
      (if (scanOctal (c :: s) 0).2 = [] then some (scanOctal (c :: s) 0).1 else none) :=
    scanOctal_spec (c :: s) 0
  unfold setUmask
  rw [hd]
  simp only [if_true]
  cases hsc : scanOctal (c :: s) 0 with
  | mk n rest =>
    rw [hsc] at hspec
    cases rest with
    | nil =>
      simp only [if_true] at hspec
      simp only
      constructor
      · intro k hk hlt
        rw [hspec] at hk
        cases hk
        rw [if_pos hlt]
        refine ⟨rfl, ?_⟩
        simp only [umaskCall, allBits, BitVec.toNat_and, BitVec.toNat_ofNat]
        have h511 : n % 2 ^ 64 = n := Nat.mod_eq_of_lt hlt
        rw [h511]
        show (n &&& 511) % 2 ^ 32 &&& 511 = n % 512
        rw [Nat.and_two_pow_sub_one_eq_mod n 9, Nat.and_two_pow_sub_one_eq_mod _ 9]
        omega
      · intro h
        have := h n hspec
        rw [if_neg (by omega)]
    | cons d rest =>
      simp only [reduceCtorEq, if_false] at hspec
      constructor
      · intro k hk
        rw [hspec] at hk
        cases hk
      · intro _; rfl

example : setUmask 0o077#32 "022".toList = (0o022#32, true) := by decide
example : setUmask 0o077#32 "0o22".toList = (0o077#32, false) := by decide

/-- **C32 (malformed operand), partial.**  An operand that does not begin with a digit and is not a
symbolic one is rejected and leaves the mask alone.  Missing: operands with a wide character whose code
is that of an operator modulo 256; see `C32_wide_operator_violates`. -/
theorem C32_malformed_partial (mask : Mode) (s : List Char) (hm : mask.toNat < 512)
    (hd : ∀ c, s.head? = some c → ¬('0' ≤ c ∧ c ≤ '9')) (hs : ¬∃ t : Symbolic, s = t.text)
    (hw : ∀ c ∈ s, c.toNat < 256 ∨
      (c.toNat % 256 ≠ '+'.toNat ∧ c.toNat % 256 ≠ '-'.toNat ∧ c.toNat % 256 ≠ '='.toNat)) :
    setUmask mask s = (mask, false) := by
  have hdig : (s.head?.map isDigit).getD false = false := by
    cases s with
    | nil => rfl
    | cons c s =>
      have := hd c rfl
      simp only [List.head?_cons, Option.map_some, Option.getD_some, isDigit, Bool.and_eq_false_iff,
        decide_eq_false_iff_not]
      have h : ¬(48 ≤ c.toNat ∧ c.toNat ≤ 57) := this
      omega
  unfold setUmask
  rw [hdig]
  simp only [Bool.false_eq_true, if_false]
  cases h : symLoop (~~~mask) none s (~~~mask) with
  | some m => exact absurd (symLoop_symbolic_inv _ s _ m hw h) hs
  | none => simp only [BitVec.not_not]; rw [umaskCall_id mask hm]

/-- The hypotheses are met by `u+rq`. -/
example : setUmask 0o027#32 "u+rq".toList = (0o027#32, false) := by decide +kernel

/-- `ī` (U+012B), which is no operator, is taken for `+`: the operand `aīr` is not symbolic, and yet
accepted. -/
theorem C32_wide_operator_violates :
    (¬∃ t : Symbolic, ['a', Char.ofNat 0x12b, 'r'] = t.text) ∧
    setUmask 0o777#32 ['a', Char.ofNat 0x12b, 'r'] = (0o333#32, true) := by
  constructor
  · rintro ⟨t, ht⟩
    have hmem : ∀ c ∈ t.text, c ≠ Char.ofNat 0x12b := by
      have hp : ∀ p : Permission, ∀ c ∈ p.text, c ≠ Char.ofNat 0x12b := by
        intro p c hc
        cases p with
        | copy k => cases k <;> (simp only [Permission.text, List.mem_singleton] at hc; subst hc; decide)
        | letters l =>
          simp only [Permission.text, List.mem_map] at hc
          obtain ⟨x, _, rfl⟩ := hc
          cases x <;> decide
      have ha : ∀ a : Spec.Action, ∀ c ∈ a.text, c ≠ Char.ofNat 0x12b := by
        intro a c hc
        simp only [Spec.Action.text, List.mem_cons] at hc
        rcases hc with rfl | hc
        · cases a.op <;> decide
        · exact hp _ c hc
      have hcl : ∀ cl : Clause, ∀ c ∈ cl.text, c ≠ Char.ofNat 0x12b := by
        intro cl c hc
        simp only [Clause.text, List.mem_append, List.mem_map, List.mem_flatMap] at hc
        rcases hc with (⟨x, _, rfl⟩ | hc) | ⟨a, _, hc⟩
        · cases x <;> decide
        · exact ha _ c hc
        · exact ha _ c hc
      intro c hc
      simp only [Symbolic.text, List.mem_append, List.mem_flatMap, List.mem_cons] at hc
      rcases hc with hc | ⟨cl, _, rfl | hc⟩
      · exact hcl _ c hc
      · decide
      · exact hcl _ c hc
    exact hmem (Char.ofNat 0x12b) (by rw [← ht]; simp) rfl
  · decide +kernel

/-! ## Printed masks -/

/-- The letters for what a mask allows a class. -/
def lettersOf (mask : Mode) (c : Class) : List PermLetter :=
  (if allowedBy mask c .read then [.r] else []) ++ (if allowedBy mask c .write then [.w] else []) ++
  (if allowedBy mask c .exec then [.x] else [])

theorem letter_eq (mask b : Mode) (ch : Char) (c : Class) (r : Right)
    (hb : b = BitVec.twoPow 32 (place c r)) (h0 : b ≠ 0#32) :
    letter mask b ch = if allowedBy mask c r then [ch] else [] := by
  have := bit_iff mask _ b hb h0
  unfold letter allowedBy
  cases h : mask.getLsbD (place c r) with
  | true => rw [if_neg (this.mpr h)]; rfl
  | false =>
    rw [if_pos]
    · rfl
    · apply Classical.byContradiction
      intro h'
      rw [this.mp h'] at h
      cases h

theorem letters_text (mask : Mode) (c : Class) : (lettersOf mask c).map PermLetter.text =
    (if allowedBy mask c .read then ['r'] else []) ++ (if allowedBy mask c .write then ['w'] else []) ++
    (if allowedBy mask c .exec then ['x'] else []) := by
  unfold lettersOf
  cases allowedBy mask c .read <;> cases allowedBy mask c .write <;> cases allowedBy mask c .exec <;> rfl

theorem letters_granted (mask : Mode) (now : Allowed) (c : Class) (r : Right) :
    ((lettersOf mask c).any fun x => designates now x r) = allowedBy mask c r := by
  unfold lettersOf
  cases r <;> cases allowedBy mask c .read <;> cases allowedBy mask c .write <;>
    cases allowedBy mask c .exec <;> rfl

/-- The symbolic operand that describes a mask. -/
def describe (mask : Mode) : Symbolic :=
  ⟨⟨[.u], ⟨.set, .letters (lettersOf mask .owner)⟩, []⟩,
    [⟨[.g], ⟨.set, .letters (lettersOf mask .group)⟩, []⟩,
     ⟨[.o], ⟨.set, .letters (lettersOf mask .others)⟩, []⟩]⟩

theorem printSymbolic_text (mask : Mode) : printSymbolic mask = (describe mask).text := by
  unfold printSymbolic
  rw [letter_eq mask 0o400#32 'r' .owner .read (by decide) (by decide),
    letter_eq mask 0o200#32 'w' .owner .write (by decide) (by decide),
    letter_eq mask 0o100#32 'x' .owner .exec (by decide) (by decide),
    letter_eq mask 0o040#32 'r' .group .read (by decide) (by decide),
    letter_eq mask 0o020#32 'w' .group .write (by decide) (by decide),
    letter_eq mask 0o010#32 'x' .group .exec (by decide) (by decide),
    letter_eq mask 0o004#32 'r' .others .read (by decide) (by decide),
    letter_eq mask 0o002#32 'w' .others .write (by decide) (by decide),
    letter_eq mask 0o001#32 'x' .others .exec (by decide) (by decide)]
  simp only [describe, Symbolic.text, Clause.text, Spec.Action.text, Permission.text, letters_text,
    List.map_cons, List.map_nil, List.flatMap_cons, List.flatMap_nil, WhoLetter.text, Operator.text,
    List.cons_append, List.nil_append, List.append_nil, List.append_assoc]

theorem describe_meaning (mask : Mode) (now : Allowed) : (describe mask).meaning now = allowedBy mask := by
  funext c r
  simp only [describe, Symbolic.meaning, Clause.act, Spec.Action.act, granted, List.foldl_cons,
    List.foldl_nil, letters_granted]
  cases c <;> simp [concerns]

/-- **C32 (`umask -S`).**  What `umask -S` prints restores the mask when it is given to `umask` again,
whatever the mask has become. -/
theorem C32_print_symbolic (mask other : Mode) (h : mask.toNat < 512) :
    setUmask other (printSymbolic mask) = (mask, true) := by
  rw [printSymbolic_text]
  obtain ⟨h1, h2, h3⟩ := C32_symbolic other (describe mask)
  rw [describe_meaning] at h2
  exact Prod.ext (allowedBy_inj _ _ h3 h h2) h1

example : printSymbolic 0o027#32 = "u=rwx,g=rx,o=".toList := by decide +kernel

theorem scan_digit (d acc : Nat) (s : List Char) (h : d < 8) :
    scanOctal (Nat.digitChar d :: s) acc = scanOctal s (acc * 8 + d) := by
  have : d = 0 ∨ d = 1 ∨ d = 2 ∨ d = 3 ∨ d = 4 ∨ d = 5 ∨ d = 6 ∨ d = 7 := by omega
  rcases this with rfl | rfl | rfl | rfl | rfl | rfl | rfl | rfl <;> rfl

theorem scan_digits (n : Nat) : ∀ (acc : Nat) (s : List Char), ∃ k,
    scanOctal (Nat.toDigits 8 n ++ s) acc = scanOctal s (acc * 8 ^ k + n) := by
  induction n using Nat.strongRecOn with
  | _ n ih =>
    intro acc s
    by_cases h : n < 8
    · exact ⟨1, by rw [Nat.toDigits_of_lt_base h, List.singleton_append, scan_digit n acc s h]⟩
    · obtain ⟨k, hk⟩ := ih (n / 8) (by omega) acc (Nat.toDigits 8 (n % 8) ++ s)
      refine ⟨k + 1, ?_⟩
      have h1 : Nat.toDigits 8 n = Nat.toDigits 8 (n / 8) ++ Nat.toDigits 8 (n % 8) := by
        rw [Nat.toDigits_append_toDigits (by omega) (by omega) (by omega)]
        congr 1
        omega
      rw [h1, List.append_assoc, hk, Nat.toDigits_of_lt_base (by omega), List.singleton_append,
        scan_digit _ _ _ (by omega)]
      congr 1
      rw [Nat.pow_succ]
      have : 8 * (n / 8) + n % 8 = n := Nat.div_add_mod n 8
      rw [Nat.add_mul, Nat.mul_assoc]
      omega

theorem scan_zeros (k : Nat) (s : List Char) : scanOctal (List.replicate k '0' ++ s) 0 = scanOctal s 0 := by
  induction k with
  | zero => rfl
  | succ k ih => rw [List.replicate_succ, List.cons_append]; exact ih

/-- **C32 (`umask`).**  What `umask` prints restores the mask when it is given to `umask` again. -/
theorem C32_print_octal (mask other : Mode) (h : mask.toNat < 512) :
    setUmask other (printOctal mask) = (mask, true) := by
  have hscan : scanOctal (printOctal mask) 0 = (mask.toNat, []) := by
    unfold printOctal
    rw [show ('0' :: (List.replicate (3 - (Nat.toDigits 8 mask.toNat).length) '0' ++
      Nat.toDigits 8 mask.toNat)) = List.replicate (3 - (Nat.toDigits 8 mask.toNat).length + 1) '0' ++
      Nat.toDigits 8 mask.toNat from rfl, scan_zeros]
    obtain ⟨k, hk⟩ := scan_digits mask.toNat 0 []
    rw [List.append_nil] at hk
    rw [hk]
    simp [scanOctal]
  have hspec : Spec.octal (printOctal mask) = some mask.toNat := by
    have := scanOctal_spec (printOctal mask) 0
    rw [hscan] at this
    exact this
  have hs : ∃ s, printOctal mask = '0' :: s := ⟨_, rfl⟩
  obtain ⟨s, hs⟩ := hs
  rw [hs] at hspec ⊢
  obtain ⟨h1, h2⟩ := (C32_octal other '0' s (by decide)).1 _ hspec (by omega)
  refine Prod.ext ?_ h1
  apply BitVec.eq_of_toNat_eq
  rw [h2]
  exact Nat.mod_eq_of_lt h

example : printOctal 0o027#32 = "0027".toList := by decide +kernel

end Yash.Path
