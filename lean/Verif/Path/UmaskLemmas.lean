import Verif.Path.Umask
import Verif.Path.UmaskSpec
/-!
# Proofs about umask
-/
set_option autoImplicit false

namespace Yash.Path

open Spec (Class Right Allowed place allowedBy WhoLetter Operator PermLetter Permission Clause Symbolic
  concerns designates granted)

/-- The bits of a mode as permissions. -/
def abs (m : Mode) : Allowed := fun c r => m.getLsbD (place c r)

theorem place_lt (c : Class) (r : Right) : place c r < 32 := by cases c <;> cases r <;> decide

theorem allowedBy_abs (mask : Mode) : allowedBy mask = abs (~~~mask) := by
  funext c r
  simp [allowedBy, abs, BitVec.getLsbD_not, place_lt]

theorem abs_or (a b : Mode) (c : Class) (r : Right) : abs (a ||| b) c r = (abs a c r || abs b c r) := by
  simp [abs]

theorem abs_and (a b : Mode) (c : Class) (r : Right) : abs (a &&& b) c r = (abs a c r && abs b c r) := by
  simp [abs]

theorem abs_not (a : Mode) (c : Class) (r : Right) : abs (~~~a) c r = !abs a c r := by
  simp [abs, BitVec.getLsbD_not, place_lt]

theorem abs_zero (c : Class) (r : Right) : abs 0#32 c r = false := by simp [abs]

theorem abs_all (c : Class) (r : Right) : abs 0o777#32 c r = true := by cases c <;> cases r <;> rfl

theorem abs_read (c : Class) (r : Right) : abs 0o444#32 c r = decide (r = .read) := by
  cases c <;> cases r <;> rfl

theorem abs_write (c : Class) (r : Right) : abs 0o222#32 c r = decide (r = .write) := by
  cases c <;> cases r <;> rfl

theorem abs_exec (c : Class) (r : Right) : abs 0o111#32 c r = decide (r = .exec) := by
  cases c <;> cases r <;> rfl

theorem abs_ids (c : Class) (r : Right) : abs 0o6000#32 c r = false := by
  cases c <;> cases r <;> rfl

/-! ## Who -/

def whoBits : List WhoLetter → Mode → Mode
  | [], who => who
  | .u :: l, who => whoBits l (who ||| 0o700#32)
  | .g :: l, who => whoBits l (who ||| 0o070#32)
  | .o :: l, who => whoBits l (who ||| 0o007#32)
  | .a :: l, _ => whoBits l 0o777#32

theorem abs_u (c : Class) (r : Right) : abs 0o700#32 c r = decide (c = .owner) := by cases c <;> cases r <;> rfl
theorem abs_g (c : Class) (r : Right) : abs 0o070#32 c r = decide (c = .group) := by cases c <;> cases r <;> rfl
theorem abs_o (c : Class) (r : Right) : abs 0o007#32 c r = decide (c = .others) := by cases c <;> cases r <;> rfl

theorem whoBits_abs (l : List WhoLetter) (who : Mode) (c : Class) (r : Right) :
    abs (whoBits l who) c r = (abs who c r || l.contains .a ||
      match c with
      | .owner => l.contains .u
      | .group => l.contains .g
      | .others => l.contains .o) := by
  induction l generalizing who with
  | nil => cases c <;> simp [whoBits]
  | cons x l ih =>
    cases x with
    | u => rw [whoBits, ih, abs_or, abs_u]; cases c <;> simp
    | g => rw [whoBits, ih, abs_or, abs_g]; cases c <;> simp
    | o => rw [whoBits, ih, abs_or, abs_o]; cases c <;> simp
    | a => rw [whoBits, ih, abs_all]; cases c <;> simp

def whoMode (l : List WhoLetter) : Mode := if whoBits l 0#32 = 0#32 then 0o777#32 else whoBits l 0#32

theorem whoMode_abs (l : List WhoLetter) (c : Class) (r : Right) : abs (whoMode l) c r = concerns l c := by
  unfold whoMode
  split
  · rename_i h
    rw [abs_all]
    have hl : l = [] := by
      cases l with
      | nil => rfl
      | cons x l =>
        exfalso
        have h1 := whoBits_abs (x :: l) 0#32
        rw [h] at h1
        cases x with
        | u => have := h1 .owner .read; rw [abs_zero] at this; simp at this
        | g => have := h1 .group .read; rw [abs_zero] at this; simp at this
        | o => have := h1 .others .read; rw [abs_zero] at this; simp at this
        | a => have := h1 .owner .read; rw [abs_zero] at this; simp at this
    subst hl
    simp [concerns]
  · rename_i h
    rw [whoBits_abs, abs_zero]
    have : l.isEmpty = false := by
      cases l with
      | nil => exact absurd rfl h
      | cons x l => rfl
    cases c <;> simp [concerns, this]

def NotWho (s : List Char) : Prop := ∀ c, s.head? = some c → c ≠ 'u' ∧ c ≠ 'g' ∧ c ≠ 'o' ∧ c ≠ 'a'

theorem parseWho_text (l : List WhoLetter) (s : List Char) (hs : NotWho s) (who : Mode) :
    parseWho (l.map WhoLetter.text ++ s) who = (whoBits l who, s) := by
  induction l generalizing who with
  | nil =>
    cases s with
    | nil => rfl
    | cons c s =>
      obtain ⟨h1, h2, h3, h4⟩ := hs c rfl
      simp [parseWho, h1, h2, h3, h4, whoBits]
  | cons x l ih =>
    cases x <;> simp [parseWho, WhoLetter.text, whoBits, ih]

theorem parseWho_inv (s : List Char) (who : Mode) :
    ∃ l s', s = l.map WhoLetter.text ++ s' ∧ NotWho s' ∧ parseWho s who = (whoBits l who, s') := by
  induction s generalizing who with
  | nil => exact ⟨[], [], rfl, fun _ h => (by cases h), rfl⟩
  | cons c s ih =>
    by_cases h1 : c = 'u'
    · obtain ⟨l, s', rfl, h, h'⟩ := ih (who ||| 0o700#32)
      exact ⟨.u :: l, s', by rw [h1]; rfl, h, by subst h1; exact h'⟩
    by_cases h2 : c = 'g'
    · obtain ⟨l, s', rfl, h, h'⟩ := ih (who ||| 0o070#32)
      exact ⟨.g :: l, s', by rw [h2]; rfl, h, by subst h2; exact h'⟩
    by_cases h3 : c = 'o'
    · obtain ⟨l, s', rfl, h, h'⟩ := ih (who ||| 0o007#32)
      exact ⟨.o :: l, s', by rw [h3]; rfl, h, by subst h3; exact h'⟩
    by_cases h4 : c = 'a'
    · obtain ⟨l, s', rfl, h, h'⟩ := ih 0o777#32
      exact ⟨.a :: l, s', by rw [h4]; rfl, h, by subst h4; exact h'⟩
    · refine ⟨[], c :: s, rfl, ?_, ?_⟩
      · intro d hd
        simp only [List.head?_cons, Option.some.injEq] at hd
        subst hd
        exact ⟨h1, h2, h3, h4⟩
      · simp [parseWho, h1, h2, h3, h4, whoBits]

/-! ## Permissions -/

theorem bit_iff (mode : Mode) (i : Nat) (b : Mode) (hb : b = BitVec.twoPow 32 i) (h0 : b ≠ 0#32) :
    mode &&& b ≠ 0#32 ↔ mode.getLsbD i = true := by
  subst hb
  rw [BitVec.and_twoPow]
  split
  · rename_i h; exact ⟨fun _ => h, fun _ => h0⟩
  · rename_i h; exact ⟨fun h' => absurd rfl h', fun h' => absurd h' h⟩

theorem spread_abs (mode b perm : Mode) (i : Nat) (hb : b = BitVec.twoPow 32 i) (h0 : b ≠ 0#32)
    (c : Class) (r : Right) : abs (spread mode b perm) c r = (mode.getLsbD i && abs perm c r) := by
  unfold spread
  have := bit_iff mode i b hb h0
  split
  · rename_i h; rw [this.mp h]; simp
  · rename_i h
    have hf : mode.getLsbD i = false := by
      cases hh : mode.getLsbD i with
      | false => rfl
      | true => exact absurd (this.mpr hh) h
    rw [hf, abs_zero]; rfl

theorem copyMask_abs (mode rb wb xb : Mode) (k : Class) (hr : rb = BitVec.twoPow 32 (place k .read))
    (hw : wb = BitVec.twoPow 32 (place k .write)) (hx : xb = BitVec.twoPow 32 (place k .exec))
    (hr0 : rb ≠ 0#32) (hw0 : wb ≠ 0#32) (hx0 : xb ≠ 0#32) (c : Class) (r : Right) :
    abs (copyMask mode rb wb xb) c r = abs mode k r := by
  unfold copyMask
  rw [abs_or, abs_or, spread_abs mode rb _ _ hr hr0, spread_abs mode wb _ _ hw hw0,
    spread_abs mode xb _ _ hx hx0, abs_read, abs_write, abs_exec]
  cases r <;> simp [abs]

theorem exec_iff (orig : Mode) : orig &&& 0o111#32 = 0#32 ↔
    (abs orig .owner .exec || abs orig .group .exec || abs orig .others .exec) = false := by
  constructor
  · intro h
    have key : ∀ i : Nat, orig.getLsbD i = true → (0o111#32).getLsbD i = false := by
      intro i hi
      have : (orig &&& 0o111#32).getLsbD i = false := by rw [h]; simp
      rw [BitVec.getLsbD_and, hi] at this
      simpa using this
    have h6 : abs orig .owner .exec = false := by
      cases hh : abs orig .owner .exec with
      | false => rfl
      | true => exact absurd (key 6 hh) (by decide)
    have h3 : abs orig .group .exec = false := by
      cases hh : abs orig .group .exec with
      | false => rfl
      | true => exact absurd (key 3 hh) (by decide)
    have h0 : abs orig .others .exec = false := by
      cases hh : abs orig .others .exec with
      | false => rfl
      | true => exact absurd (key 0 hh) (by decide)
    rw [h6, h3, h0]; rfl
  · intro h
    simp only [Bool.or_eq_false_iff] at h
    obtain ⟨⟨h6, h3⟩, h0⟩ := h
    have hc : ∀ i : Fin 32, (0o111#32).getLsbD i = true → i.val = 6 ∨ i.val = 3 ∨ i.val = 0 := by decide
    apply BitVec.eq_of_getLsbD_eq
    intro i hi
    rw [BitVec.getLsbD_and]
    cases hb : (0o111#32).getLsbD i with
    | false => simp
    | true =>
      rcases hc ⟨i, hi⟩ hb with h | h | h
      · simp only at h; subst h; rw [show orig.getLsbD 6 = false from h6]; simp
      · simp only at h; subst h; rw [show orig.getLsbD 3 = false from h3]; simp
      · simp only at h; subst h; rw [show orig.getLsbD 0 = false from h0]; simp

def letterBits (orig : Mode) : List PermLetter → Mode → Mode
  | [], perm => perm
  | .r :: l, perm => letterBits orig l (perm ||| 0o444#32)
  | .w :: l, perm => letterBits orig l (perm ||| 0o222#32)
  | .X :: l, perm => letterBits orig l (if orig &&& 0o111#32 = 0#32 then perm else perm ||| 0o111#32)
  | .x :: l, perm => letterBits orig l (perm ||| 0o111#32)
  | .s :: l, perm => letterBits orig l (perm ||| 0o6000#32)

theorem letterBits_abs (orig : Mode) (l : List PermLetter) (perm : Mode) (c : Class) (r : Right) :
    abs (letterBits orig l perm) c r = (abs perm c r || l.any fun x => designates (abs orig) x r) := by
  induction l generalizing perm with
  | nil => simp [letterBits]
  | cons x l ih =>
    cases x with
    | r => rw [letterBits, ih, abs_or, abs_read]; cases r <;> simp [designates]
    | w => rw [letterBits, ih, abs_or, abs_write]; cases r <;> simp [designates]
    | x => rw [letterBits, ih, abs_or, abs_exec]; cases r <;> simp [designates]
    | s => rw [letterBits, ih, abs_or, abs_ids]; cases r <;> simp [designates]
    | X =>
      rw [letterBits, ih]
      split
      · rename_i h
        have := (exec_iff orig).mp h
        cases r <;> simp [designates, this]
      · rename_i h
        have : (abs orig .owner .exec || abs orig .group .exec || abs orig .others .exec) = true := by
          cases hh : (abs orig .owner .exec || abs orig .group .exec || abs orig .others .exec) with
          | true => rfl
          | false => exact absurd ((exec_iff orig).mpr hh) h
        rw [abs_or, abs_exec]
        cases r <;> simp [designates, this]

def NotPerm (s : List Char) : Prop :=
  ∀ c, s.head? = some c → c ≠ 'r' ∧ c ≠ 'w' ∧ c ≠ 'X' ∧ c ≠ 'x' ∧ c ≠ 's'

theorem parseLetters_text (orig : Mode) (l : List PermLetter) (s : List Char) (hs : NotPerm s)
    (perm : Mode) :
    parseLetters orig (l.map PermLetter.text ++ s) perm = (letterBits orig l perm, s) := by
  induction l generalizing perm with
  | nil =>
    cases s with
    | nil => rfl
    | cons c s =>
      obtain ⟨h1, h2, h3, h4, h5⟩ := hs c rfl
      simp [parseLetters, h1, h2, h3, h4, h5, letterBits]
  | cons x l ih =>
    cases x <;> simp [parseLetters, PermLetter.text, letterBits, ih]

theorem parseLetters_inv (orig : Mode) (s : List Char) (perm : Mode) :
    ∃ l s', s = l.map PermLetter.text ++ s' ∧ NotPerm s' ∧
      parseLetters orig s perm = (letterBits orig l perm, s') := by
  induction s generalizing perm with
  | nil => exact ⟨[], [], rfl, fun _ h => (by cases h), rfl⟩
  | cons c s ih =>
    by_cases h1 : c = 'r'
    · obtain ⟨l, s', rfl, h, h'⟩ := ih (perm ||| 0o444#32)
      exact ⟨.r :: l, s', by rw [h1]; rfl, h, by subst h1; exact h'⟩
    by_cases h2 : c = 'w'
    · obtain ⟨l, s', rfl, h, h'⟩ := ih (perm ||| 0o222#32)
      exact ⟨.w :: l, s', by rw [h2]; rfl, h, by subst h2; exact h'⟩
    by_cases h3 : c = 'X'
    · obtain ⟨l, s', rfl, h, h'⟩ := ih (if orig &&& 0o111#32 = 0#32 then perm else perm ||| 0o111#32)
      exact ⟨.X :: l, s', by rw [h3]; rfl, h, by subst h3; exact h'⟩
    by_cases h4 : c = 'x'
    · obtain ⟨l, s', rfl, h, h'⟩ := ih (perm ||| 0o111#32)
      exact ⟨.x :: l, s', by rw [h4]; rfl, h, by subst h4; exact h'⟩
    by_cases h5 : c = 's'
    · obtain ⟨l, s', rfl, h, h'⟩ := ih (perm ||| 0o6000#32)
      exact ⟨.s :: l, s', by rw [h5]; rfl, h, by subst h5; exact h'⟩
    · refine ⟨[], c :: s, rfl, ?_, ?_⟩
      · intro d hd
        simp only [List.head?_cons, Option.some.injEq] at hd
        subst hd
        exact ⟨h1, h2, h3, h4, h5⟩
      · simp [parseLetters, h1, h2, h3, h4, h5, letterBits]

def permVal (orig : Mode) : Permission → Mode
  | .letters l => letterBits orig l 0#32
  | .copy .owner => copyMask orig 0o400#32 0o200#32 0o100#32
  | .copy .group => copyMask orig 0o040#32 0o020#32 0o010#32
  | .copy .others => copyMask orig 0o004#32 0o002#32 0o001#32

theorem permVal_abs (orig : Mode) (p : Permission) (c : Class) (r : Right) :
    abs (permVal orig p) c r = granted (abs orig) p r := by
  cases p with
  | letters l => rw [permVal, letterBits_abs, abs_zero]; simp [granted]
  | copy k =>
    cases k <;>
    exact copyMask_abs orig _ _ _ _ (by decide) (by decide) (by decide) (by decide) (by decide)
      (by decide) c r

/-- What may follow a permission: an operator, a comma or the end. -/
def After (s : List Char) : Prop := ∀ c, s.head? = some c → c = '=' ∨ c = '+' ∨ c = '-' ∨ c = ','

theorem After.notPerm {s : List Char} (h : After s) : NotPerm s := by
  intro c hc
  rcases h c hc with rfl | rfl | rfl | rfl <;> decide

theorem After.notWho {s : List Char} (h : After s) : NotWho s := by
  intro c hc
  rcases h c hc with rfl | rfl | rfl | rfl <;> decide

theorem parsePerm_other (orig : Mode) (s : List Char)
    (h : ∀ c, s.head? = some c → c ≠ 'u' ∧ c ≠ 'g' ∧ c ≠ 'o') :
    parsePerm orig s = parseLetters orig s 0#32 := by
  unfold parsePerm
  split
  · exact absurd rfl (h _ rfl).1
  · exact absurd rfl (h _ rfl).2.1
  · exact absurd rfl (h _ rfl).2.2
  · rfl

theorem parsePerm_text (orig : Mode) (p : Permission) (s : List Char) (hs : After s) :
    parsePerm orig (p.text ++ s) = (permVal orig p, s) := by
  cases p with
  | copy k => cases k <;> rfl
  | letters l =>
    rw [Permission.text, parsePerm_other, parseLetters_text orig l s hs.notPerm]
    · rfl
    · intro c hc
      cases l with
      | nil => exact ⟨(hs.notWho c hc).1, (hs.notWho c hc).2.1, (hs.notWho c hc).2.2.1⟩
      | cons x l =>
        simp only [List.map_cons, List.cons_append, List.head?_cons, Option.some.injEq] at hc
        subst hc
        cases x <;> decide

theorem parsePerm_inv (orig : Mode) (s : List Char) :
    ∃ p s', s = p.text ++ s' ∧ parsePerm orig s = (permVal orig p, s') := by
  by_cases h : ∀ c, s.head? = some c → c ≠ 'u' ∧ c ≠ 'g' ∧ c ≠ 'o'
  · obtain ⟨l, s', h1, _, h3⟩ := parseLetters_inv orig s 0#32
    exact ⟨.letters l, s', h1, by rw [parsePerm_other orig s h, h3]; rfl⟩
  · cases s with
    | nil => exact absurd (fun c h => (by cases h)) h
    | cons c s =>
      by_cases h1 : c = 'u'
      · subst h1; exact ⟨.copy .owner, s, rfl, rfl⟩
      by_cases h2 : c = 'g'
      · subst h2; exact ⟨.copy .group, s, rfl, rfl⟩
      by_cases h3 : c = 'o'
      · subst h3; exact ⟨.copy .others, s, rfl, rfl⟩
      · exfalso
        apply h
        intro d hd
        simp only [List.head?_cons, Option.some.injEq] at hd
        subst hd
        exact ⟨h1, h2, h3⟩

/-! ## The loop -/

def opVal : Operator → UmaskOp
  | .set => .set
  | .add => .plus
  | .remove => .minus

theorem umaskOp_text (o : Operator) : umaskOp o.text = some (opVal o) := by cases o <;> decide

/-- The wide character is not one of those that look like an operator after truncation. -/
def NoWideOp (s : List Char) : Prop :=
  ∀ c ∈ s, c.toNat < 256 ∨ (c.toNat % 256 ≠ 43 ∧ c.toNat % 256 ≠ 45 ∧ c.toNat % 256 ≠ 61)

theorem umaskOp_inv (c : Char) (op : UmaskOp) (h : umaskOp c = some op)
    (hc : c.toNat < 256 ∨ (c.toNat % 256 ≠ 43 ∧ c.toNat % 256 ≠ 45 ∧ c.toNat % 256 ≠ 61)) :
    ∃ o : Operator, c = o.text ∧ op = opVal o := by
  have eq : ∀ d : Char, c.toNat = d.toNat → c = d := fun d h => Char.toNat_inj.mp h
  unfold umaskOp at h
  split at h
  · cases h; exact ⟨.add, eq _ (by simp only [Operator.text]; show _ = 43; omega), rfl⟩
  split at h
  · cases h; exact ⟨.remove, eq _ (by simp only [Operator.text]; show _ = 45; omega), rfl⟩
  split at h
  · cases h; exact ⟨.set, eq _ (by simp only [Operator.text]; show _ = 61; omega), rfl⟩
  · cases h

theorem symLoop_some (orig w : Mode) (s : List Char) (new : Mode) :
    symLoop orig (some w) s new =
      match s with
      | [] => none
      | c :: s2 =>
        match umaskOp c with
        | none => none
        | some op =>
          match (parsePerm orig s2).2 with
          | [] => some (applyOp op w (parsePerm orig s2).1 new)
          | d :: s3 =>
            if d = ',' then symLoop orig none s3 (applyOp op w (parsePerm orig s2).1 new)
            else symLoop orig (some w) (d :: s3) (applyOp op w (parsePerm orig s2).1 new) := by
  rw [symLoop]
  cases s with
  | nil => rfl
  | cons c s2 =>
    simp only
    cases umaskOp c with
    | none => rfl
    | some op =>
      simp only
      split <;> simp_all

theorem symLoop_none (orig : Mode) (s : List Char) (new : Mode) :
    symLoop orig none s new = symLoop orig (some (whoOf s).1) (whoOf s).2 new := by
  rw [symLoop, symLoop]

def actVal (orig w new : Mode) (a : Spec.Action) : Mode :=
  applyOp (opVal a.op) w (permVal orig a.perm) new

def clauseVal (orig new : Mode) (c : Clause) : Mode :=
  (c.first :: c.more).foldl (actVal orig (whoMode c.who)) new

/-- The rest of a symbolic operand after a clause. -/
def moreText (cs : List Clause) : List Char := cs.flatMap fun c => ',' :: c.text

theorem moreText_after (as : List Spec.Action) (cs : List Clause) :
    After (as.flatMap Spec.Action.text ++ moreText cs) := by
  intro c hc
  cases as with
  | nil =>
    cases cs with
    | nil => cases hc
    | cons d cs =>
      simp only [moreText, List.flatMap_nil, List.nil_append, List.flatMap_cons, List.cons_append,
        List.head?_cons, Option.some.injEq] at hc
      exact Or.inr (Or.inr (Or.inr hc.symm))
  | cons a as =>
    simp only [List.flatMap_cons, Spec.Action.text, List.cons_append, List.head?_cons,
      Option.some.injEq] at hc
    subst hc
    cases a.op <;> decide

theorem whoOf_text (l : List WhoLetter) (s : List Char) (hs : NotWho s) :
    whoOf (l.map WhoLetter.text ++ s) = (whoMode l, s) := by
  unfold whoOf
  rw [parseWho_text l s hs]
  rfl

theorem symLoop_text (orig : Mode) (cs : List Clause) :
    ∀ (a : Spec.Action) (as : List Spec.Action) (w new : Mode),
      symLoop orig (some w) (a.text ++ (as.flatMap Spec.Action.text ++ moreText cs)) new =
        some (cs.foldl (clauseVal orig) ((a :: as).foldl (actVal orig w) new)) := by
  induction cs with
  | nil =>
    intro a as
    induction as generalizing a with
    | nil =>
      intro w new
      rw [symLoop_some, Spec.Action.text, List.cons_append]
      simp only
      rw [umaskOp_text, parsePerm_text _ _ _ (moreText_after [] [])]
      rfl
    | cons b as ih =>
      intro w new
      rw [symLoop_some, Spec.Action.text, List.cons_append]
      simp only
      rw [umaskOp_text, parsePerm_text _ _ _ (moreText_after (b :: as) [])]
      have := ih b w (actVal orig w new a)
      simp only [List.flatMap_cons, Spec.Action.text, List.cons_append, List.append_assoc] at this ⊢
      rw [if_neg (by cases b.op <;> decide)]
      exact this
  | cons c cs ihc =>
    intro a as
    induction as generalizing a with
    | nil =>
      intro w new
      rw [symLoop_some, Spec.Action.text, List.cons_append]
      simp only
      rw [umaskOp_text, parsePerm_text _ _ _ (moreText_after [] (c :: cs))]
      simp only [moreText, List.flatMap_nil, List.nil_append, List.flatMap_cons, List.cons_append,
        if_true]
      rw [symLoop_none]
      have hw : whoOf (c.text ++ moreText cs) = (whoMode c.who,
          c.first.text ++ (c.more.flatMap Spec.Action.text ++ moreText cs)) := by
        rw [Clause.text, List.append_assoc, List.append_assoc]
        apply whoOf_text
        have := (moreText_after (c.first :: c.more) cs).notWho
        simpa using this
      rw [show (cs.flatMap fun c => ',' :: c.text) = moreText cs from rfl, hw, ihc]
      rfl
    | cons b as ih =>
      intro w new
      rw [symLoop_some, Spec.Action.text, List.cons_append]
      simp only
      rw [umaskOp_text, parsePerm_text _ _ _ (moreText_after (b :: as) (c :: cs))]
      have := ih b w (actVal orig w new a)
      simp only [List.flatMap_cons, Spec.Action.text, List.cons_append, List.append_assoc] at this ⊢
      rw [if_neg (by cases b.op <;> decide)]
      exact this

theorem symLoop_symbolic (orig : Mode) (s : Symbolic) (new : Mode) :
    symLoop orig none s.text new = some ((s.first :: s.more).foldl (clauseVal orig) new) := by
  rw [symLoop_none]
  have hw : whoOf s.text = (whoMode s.first.who,
      s.first.first.text ++ (s.first.more.flatMap Spec.Action.text ++ moreText s.more)) := by
    rw [Symbolic.text, Clause.text, List.append_assoc, List.append_assoc]
    apply whoOf_text
    have := (moreText_after (s.first.first :: s.first.more) s.more).notWho
    simpa [moreText] using this
  rw [hw, symLoop_text]
  rfl

theorem symLoop_inv (orig : Mode) (n : Nat) : ∀ (s : List Char) (w new m : Mode), s.length = n →
    NoWideOp s → symLoop orig (some w) s new = some m →
    ∃ (a : Spec.Action) (as : List Spec.Action) (cs : List Clause), s = Spec.Action.text a ++ (as.flatMap Spec.Action.text ++ moreText cs) := by
  induction n using Nat.strongRecOn with
  | _ n ih =>
    intro s w new m hn hwide h
    rw [symLoop_some] at h
    cases s with
    | nil => cases h
    | cons c s2 =>
      simp only at h
      rw [List.length_cons] at hn
      cases ho : umaskOp c with
      | none => rw [ho] at h; cases h
      | some op =>
        obtain ⟨o, rfl, _⟩ := umaskOp_inv c op ho (hwide c (by simp))
        rw [ho] at h
        simp only at h
        obtain ⟨p, s', hs, hp⟩ := parsePerm_inv orig s2
        rw [hp] at h
        have hlen : s2.length = p.text.length + s'.length := by rw [hs]; simp
        have hwide' : NoWideOp s' := fun d hd => hwide d (by
          rw [hs]; exact List.mem_cons_of_mem _ (List.mem_append_right _ hd))
        cases s' with
        | nil => exact ⟨⟨o, p⟩, [], [], by rw [hs]; simp [Spec.Action.text, moreText]⟩
        | cons d s3 =>
          rw [List.length_cons] at hlen
          simp only at h
          split at h
          · rename_i hd
            subst hd
            rw [symLoop_none] at h
            obtain ⟨l, s4, h4, _, h5⟩ := parseWho_inv s3 0#32
            have h6 : (whoOf s3).2 = s4 := by unfold whoOf; rw [h5]
            have hlen' : s3.length = l.length + s4.length := by rw [h4]; simp
            rw [h6] at h
            obtain ⟨a, as, cs, h7⟩ := ih s4.length (by omega) s4 _ _ _ rfl
              (fun e he => hwide' e (by
                rw [h4]; exact List.mem_cons_of_mem _ (List.mem_append_right _ he))) h
            refine ⟨⟨o, p⟩, [], ⟨l, a, as⟩ :: cs, ?_⟩
            rw [hs, h4, h7]
            simp [Spec.Action.text, moreText, Clause.text]
          · obtain ⟨a, as, cs, h7⟩ := ih (d :: s3).length (by rw [List.length_cons]; omega) (d :: s3) _ _ _
              rfl hwide' h
            refine ⟨⟨o, p⟩, a :: as, cs, ?_⟩
            rw [hs, h7]
            simp [Spec.Action.text]

theorem symLoop_symbolic_inv (orig : Mode) (s : List Char) (new m : Mode) (hw : NoWideOp s)
    (h : symLoop orig none s new = some m) : ∃ t : Symbolic, s = t.text := by
  rw [symLoop_none] at h
  obtain ⟨l, s4, h4, _, h5⟩ := parseWho_inv s 0#32
  have h6 : (whoOf s).2 = s4 := by unfold whoOf; rw [h5]
  rw [h6] at h
  obtain ⟨a, as, cs, h7⟩ := symLoop_inv orig s4.length s4 _ _ _ rfl
    (fun e he => hw e (by rw [h4]; exact List.mem_append_right _ he)) h
  refine ⟨⟨⟨l, a, as⟩, cs⟩, ?_⟩
  rw [h4, h7]
  simp [Symbolic.text, Clause.text, moreText]

/-! ## Meaning -/

theorem actVal_abs (orig : Mode) (l : List WhoLetter) (new : Mode) (a : Spec.Action) :
    abs (actVal orig (whoMode l) new a) = Spec.Action.act (abs orig) l (abs new) a := by
  funext c r
  unfold actVal Spec.Action.act
  cases ho : a.op with
  | set =>
    simp only [opVal, applyOp]
    rw [abs_or, abs_and, abs_and, abs_not, whoMode_abs, permVal_abs]
    cases concerns l c <;> simp
  | add =>
    simp only [opVal, applyOp]
    rw [abs_or, abs_and, whoMode_abs, permVal_abs]
    cases concerns l c <;> simp
  | remove =>
    simp only [opVal, applyOp]
    rw [abs_and, abs_not, abs_and, whoMode_abs, permVal_abs]
    cases concerns l c <;> simp

theorem acts_abs (orig : Mode) (l : List WhoLetter) (as : List Spec.Action) (new : Mode) :
    abs (as.foldl (actVal orig (whoMode l)) new) =
      as.foldl (Spec.Action.act (abs orig) l) (abs new) := by
  induction as generalizing new with
  | nil => rfl
  | cons a as ih => rw [List.foldl_cons, List.foldl_cons, ih, actVal_abs]

theorem clauses_abs (orig : Mode) (cs : List Clause) (new : Mode) :
    abs (cs.foldl (clauseVal orig) new) = cs.foldl (Clause.act (abs orig)) (abs new) := by
  induction cs generalizing new with
  | nil => rfl
  | cons c cs ih =>
    rw [List.foldl_cons, List.foldl_cons, ih, clauseVal, acts_abs]
    rfl

end Yash.Path
