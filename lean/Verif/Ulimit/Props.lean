import Verif.Ulimit.Spec
/-! # Property C86: resource limits -/
set_option autoImplicit false

namespace Yash.Ulimit

open Spec
open Yash.Sig.Names.Spec (Numeral)
open Yash.Sig.Names (numeral_iff decimal_numeral)

/-! ## Options -/

theorem unit_cases {c : Char} (h : unit c ≠ none) :
    c = 'c' ∨ c = 'd' ∨ c = 'e' ∨ c = 'f' ∨ c = 'i' ∨ c = 'l' ∨ c = 'm' ∨ c = 'n' ∨ c = 'q' ∨ c = 'r' ∨ c = 's' ∨ c = 't' ∨ c = 'u' ∨ c = 'v' ∨ c = 'x' := by
  revert h
  unfold unit
  split <;> simp

theorem unit_resource {c : Char} {u : Nat} (h : unit c = some u) : ∃ r, resources.find? (fun r => r.letter == c) = some r ∧ r.letter = c ∧ r.factor = u ∧ 0 < u := by
  have hc := unit_cases (c := c) (by rw [h]; simp)
  rcases hc with rfl | rfl | rfl | rfl | rfl | rfl | rfl | rfl | rfl | rfl | rfl | rfl | rfl | rfl | rfl <;>
    (cases h; exact ⟨_, rfl, rfl, rfl, by decide⟩)

theorem unit_none {c : Char} (h : unit c = none) : resources.find? (fun r => r.letter == c) = none := by
  rw [List.find?_eq_none]
  intro r hr he
  have hl : ∀ r ∈ resources, unit r.letter ≠ none := by decide +kernel
  exact hl r hr (by rw [beq_iff_eq.1 he]; exact h)

theorem find_letter (C : Config) {c : Char} (h : c = 'H' ∨ c = 'S' ∨ c = 'a' ∨ unit c ≠ none) :
    c ≠ '-' ∧ ∃ o, Xgetopt.Spec.findShort C.getopt c = some o ∧ o.short = c ∧ o.arg = .none := by
  have hC : C.getopt = ⟨options, C.posix, false, false, C.isDigit⟩ := rfl
  have hc : c = 'H' ∨ c = 'S' ∨ c = 'a' ∨ c = 'c' ∨ c = 'd' ∨ c = 'e' ∨ c = 'f' ∨ c = 'i' ∨ c = 'l' ∨ c = 'm' ∨ c = 'n' ∨ c = 'q' ∨ c = 'r' ∨ c = 's' ∨ c = 't' ∨ c = 'u' ∨
      c = 'v' ∨ c = 'x' := by
    rcases h with h | h | h | h
    · exact .inl h
    · exact .inr (.inl h)
    · exact .inr (.inr (.inl h))
    · exact .inr (.inr (.inr (unit_cases h)))
  rw [hC]
  cases C.posix <;>
  rcases hc with rfl | rfl | rfl | rfl | rfl | rfl | rfl | rfl | rfl | rfl | rfl | rfl | rfl | rfl | rfl | rfl | rfl | rfl <;>
    exact ⟨by decide, _, rfl, rfl, rfl⟩

theorem read_cluster (C : Config) : ∀ {letters : List Char}, (∀ c ∈ letters, c = 'H' ∨ c = 'S' ∨ c = 'a' ∨ unit c ≠ none) →
    ∃ rs, Xgetopt.Spec.cluster C.getopt none letters = .complete rs none ∧ rs.map (fun o => o.1.short) = letters
  | [], _ => ⟨[], rfl, rfl⟩
  | c :: cs, h => by
    obtain ⟨-, o, h1, h2, h3⟩ := find_letter C (h c (by simp))
    obtain ⟨rs, h4, h5⟩ := read_cluster C (letters := cs) fun d hd => h d (by simp [hd])
    refine ⟨(o, none) :: rs, ?_, by simp [h2, h5]⟩
    rw [Xgetopt.Spec.cluster]
    simp only [h1, h3, h4, Xgetopt.Spec.Single.cons]

theorem read_usage (C : Config) {letters : List Char} {args ops : List Str} (h : Usage letters args ops) :
    ∃ rs used, Xgetopt.Spec.parse C.getopt none args = ⟨rs, used, ops, .done⟩ ∧ rs.map (fun o => o.1.short) = letters ∧ '-' ∉ letters := by
  have hops : ∀ ops : List Str, (∀ o ∈ ops, o.head? ≠ some '-') → Xgetopt.Spec.parse C.getopt none ops = ⟨[], [], ops, .done⟩ := by
    intro ops
    induction ops with
    | nil => intro _; rw [Xgetopt.Spec.parse]
    | cons o ops ih =>
      intro h
      have hk : Xgetopt.Spec.kind C.getopt o = .operand := by
        have := h o (by simp)
        unfold Xgetopt.Spec.kind
        split <;> simp_all
      rw [Xgetopt.Spec.parse]
      simp only [hk, ih fun x hx => h x (by simp [hx])]
      split <;> rfl
  induction h with
  | operands h => exact ⟨_, _, hops _ h, rfl, by simp⟩
  | separated => exact ⟨[], ["--".toList], by rw [Xgetopt.Spec.parse]; rfl, rfl, by simp⟩
  | @options letters more args ops hne hl _ ih =>
    obtain ⟨rs, used, h1, h2, h3⟩ := ih
    obtain ⟨rs', h4, h5⟩ := read_cluster C hl
    have hd : '-' ∉ letters := fun hm => (find_letter C (hl '-' hm)).1 rfl
    refine ⟨rs' ++ rs, ('-' :: letters) :: used, ?_, by simp [h2, h5], by simp [hd, h3]⟩
    have hk : Xgetopt.Spec.kind C.getopt ('-' :: letters) = .short letters := by
      cases letters with
      | nil => exact absurd rfl hne
      | cons c cs =>
        have hc : c ≠ '-' := by rintro rfl; simp at hd
        unfold Xgetopt.Spec.kind
        split
        · rename_i heq; simp at heq; exact absurd heq.1 hc
        · rename_i heq; simp at heq; exact absurd heq.1 hc
        · rename_i heq
          simp at heq
          obtain ⟨rfl, rfl⟩ := heq
          simp [Config.getopt]
        · rename_i h; exact absurd rfl (h c cs)
    rw [Xgetopt.Spec.parse]
    simp only [hk, h4, h1]

def initVars : Vars := ⟨true, true, none, fsize, false⟩

theorem keep_parts : ∀ (letters : List Char) (v : Vars), 'H' ∉ letters → 'S' ∉ letters → (letters.foldl Vars.option1 v).hard = v.hard ∧ (letters.foldl Vars.option1 v).soft = v.soft
  | [], _, _, _ => ⟨rfl, rfl⟩
  | c :: cs, v, h1, h2 => by
    have := keep_parts cs (v.option1 c) (fun h => h1 (by simp [h])) (fun h => h2 (by simp [h]))
    have hH : c ≠ 'H' := by rintro rfl; simp at h1
    have hS : c ≠ 'S' := by rintro rfl; simp at h2
    rw [List.foldl_cons, this.1, this.2]
    unfold Vars.option1
    rw [if_neg hH, if_neg hS]
    split
    · exact ⟨rfl, rfl⟩
    · split <;> exact ⟨rfl, rfl⟩

theorem vars_parts {letters : List Char} {h s : Bool} (hs : Selects letters h s) : (letters.foldl Vars.option1 initVars).hard = h ∧ (letters.foldl Vars.option1 initVars).soft = s := by
  cases hs with
  | both h1 h2 => exact keep_parts _ _ h1 h2
  | hard h1 h2 => rw [List.foldl_append, List.foldl_cons]; exact keep_parts _ _ h1 h2
  | soft h1 h2 => rw [List.foldl_append, List.foldl_cons]; exact keep_parts _ _ h1 h2

theorem keep_resource : ∀ (letters : List Char) (v : Vars), (∀ c ∈ letters, unit c = none) →
    (letters.foldl Vars.option1 v).resource = v.resource ∧ (letters.foldl Vars.option1 v).option = v.option
  | [], _, _ => ⟨rfl, rfl⟩
  | c :: cs, v, h => by
    have := keep_resource cs (v.option1 c) fun d hd => h d (by simp [hd])
    rw [List.foldl_cons, this.1, this.2]
    unfold Vars.option1
    split
    · exact ⟨rfl, rfl⟩
    · split
      · exact ⟨rfl, rfl⟩
      · split
        · exact ⟨rfl, rfl⟩
        · rw [unit_none (h c (by simp))]
          exact ⟨rfl, rfl⟩

theorem option_resource (v : Vars) {c : Char} {u : Nat} (h : unit c = some u) : (v.option1 c).resource.letter = c ∧ (v.option1 c).resource.factor = u ∧ (v.option1 c).option = some c ∧ (v.option1 c).all = v.all := by
  obtain ⟨r, h1, h2, h3, -⟩ := unit_resource h
  have hc := unit_cases (c := c) (by rw [h]; simp)
  have hne : c ≠ 'H' ∧ c ≠ 'S' ∧ c ≠ 'a' := by
    rcases hc with rfl | rfl | rfl | rfl | rfl | rfl | rfl | rfl | rfl | rfl | rfl | rfl | rfl | rfl | rfl <;> decide
  unfold Vars.option1
  rw [if_neg hne.1, if_neg hne.2.1, if_neg hne.2.2, h1]
  exact ⟨h2, h3, rfl, rfl⟩

theorem vars_resource {letters : List Char} {c : Char} {u : Nat} (h : Chooses letters c u) :
    (letters.foldl Vars.option1 initVars).resource.letter = c ∧ (letters.foldl Vars.option1 initVars).resource.factor = u ∧ 0 < u := by
  cases h with
  | none h =>
    rw [(keep_resource _ _ h).1]
    exact ⟨rfl, rfl, by decide⟩
  | @last before after c u h1 h2 =>
    rw [List.foldl_append, List.foldl_cons, (keep_resource _ _ h2).1]
    have := option_resource (List.foldl Vars.option1 initVars before) h1
    obtain ⟨-, -, -, -, hp⟩ := unit_resource h1
    exact ⟨this.1, this.2.1, hp⟩

theorem vars_all : ∀ (letters : List Char) (v : Vars), (letters.foldl Vars.option1 v).all = (v.all || letters.contains 'a')
  | [], v => by simp
  | c :: cs, v => by
    rw [List.foldl_cons, vars_all cs]
    have : (v.option1 c).all = (v.all || c == 'a') := by
      unfold Vars.option1
      split
      · rename_i h; subst h; simp
      · split
        · rename_i h; subst h; simp
        · split
          · rename_i h; subst h; simp
          · rename_i h
            have : (c == 'a') = false := by simpa using h
            split <;> simp [this]
    rw [this, List.contains_cons, Bool.or_assoc]
    rw [Bool.beq_comm]

/-- What the built-in does with its operands. -/
theorem builtin_eq (C : Config) (sys : System) {letters : List Char} {args ops : List Str} (h : Usage letters args ops) (ha : 'a' ∉ letters) {hard soft : Bool} (hs : Selects letters hard soft)
    (s : State) : ∃ r, r = (letters.foldl Vars.option1 initVars).resource ∧ ulimitBuiltin C sys args s =
      match ops with
      | [] => if sys.tells r.letter then some (s, printValue C soft (s r.letter) r, .success) else some (s, [], .failure)
      | [operand] =>
        if sys.tells r.letter then
          match parseOperand C r (s r.letter) operand with
          | .error st => some (s, [], st)
          | .ok value =>
            if exceeds C ⟨if soft then value else (s r.letter).cur, if hard then value else (s r.letter).max⟩ then some (s, [], .failure)
            else if sys.allows s r.letter ⟨if soft then value else (s r.letter).cur, if hard then value else (s r.letter).max⟩ then
              some (fun c => if c = r.letter then ⟨if soft then value else (s r.letter).cur, if hard then value else (s r.letter).max⟩ else s c, [], .success)
            else some (s, [], .failure)
        else some (s, [], .failure)
      | _ => some (s, [], .error) := by
  obtain ⟨rs, used, h1, h2, h3⟩ := read_usage C h
  have h4 : (rs.any fun o => o.1.short == '-') = false := by
    rw [Bool.eq_false_iff]
    intro hx
    obtain ⟨o, g1, g2⟩ := List.any_eq_true.1 hx
    apply h3
    rw [← h2]
    exact List.mem_map.2 ⟨o, g1, by simpa using g2⟩
  obtain ⟨p1, p2⟩ := vars_parts hs
  have h5 : (letters.foldl Vars.option1 initVars).all = false := by
    rw [vars_all]
    simpa [initVars] using ha
  refine ⟨_, rfl, ?_⟩
  unfold ulimitBuiltin
  simp only [h1, h4, h2, Bool.false_eq_true, if_false]
  rw [show (⟨true, true, none, fsize, false⟩ : Vars) = initVars from rfl]
  simp only [h5, p1, p2, Bool.false_eq_true, if_false]
  cases ops with
  | nil => rfl
  | cons o ops => cases ops <;> rfl

/-! ## Operands -/

theorem digits_value (s : Str) : s.all (fun c => '0' ≤ c && c ≤ '9') = true ∧ s ≠ [] → Numeral s (s.foldl (fun n c => 10 * n + (c.toNat - 48)) 0) := by
  rintro ⟨h1, h2⟩
  rw [numeral_iff]
  refine ⟨h2, ?_, ?_⟩
  · rw [List.all_eq_true] at h1 ⊢
    intro c hc
    have := h1 c hc
    simpa [TestBuiltin.isDigit] using this
  · have : ∀ (s : Str) (acc : Nat), TestBuiltin.digitsVal s acc = s.foldl (fun n c => 10 * n + (c.toNat - 48)) acc := by
      intro s
      induction s with
      | nil => intro acc; rfl
      | cons c s ih => intro acc; simp only [TestBuiltin.digitsVal, List.foldl_cons, ih, TestBuiltin.digitVal]
    exact this s 0

theorem numeral_unique {s : Str} {n m : Nat} (h1 : Numeral s n) (h2 : Numeral s m) : n = m := by
  rw [numeral_iff] at h1 h2
  rw [← h1.2.2, h2.2.2]

theorem numeral_digits {s : Str} {n : Nat} (h : Numeral s n) : s ≠ [] ∧ s.all (fun c => '0' ≤ c && c ≤ '9') = true := by
  rw [numeral_iff] at h
  refine ⟨h.1, ?_⟩
  have := h.2.1
  rw [List.all_eq_true] at this ⊢
  intro c hc
  have := this c hc
  simpa [TestBuiltin.isDigit] using this

theorem numeral_word {s : Str} {n : Nat} (h : Numeral s n) : s ≠ "hard".toList ∧ s ≠ "soft".toList ∧ s ≠ "unlimited".toList := by
  have := (numeral_digits h).2
  refine ⟨?_, ?_, ?_⟩ <;> (rintro rfl; revert this; decide)

theorem number_value {C : Config} {u v : Nat} (hu : 0 < u) (hv : ¬((v % C.rlimits * u) % C.rlimits / u ≠ v)) : v * u < C.rlimits ∨ C.rlimits = 0 := by
  by_cases h0 : C.rlimits = 0
  · exact .inr h0
  left
  have h1 : (v % C.rlimits * u) % C.rlimits / u = v := by simpa using hv
  have h2 := Nat.mod_lt (v % C.rlimits * u) (Nat.pos_of_ne_zero h0)
  have h3 : v * u ≤ (v % C.rlimits * u) % C.rlimits := by
    have := Nat.div_mul_le_self ((v % C.rlimits * u) % C.rlimits) u
    rwa [h1] at this
  omega

/-- Operands are understood as specified: overflow is noticed, and so are values that have a special meaning to the system. -/
theorem operand_iff {C : Config} (hC : 0 < C.rlimits) (r : Resource) (hr : 0 < r.factor) (l : Limit) (s : Str) (n : Nat) :
    parseOperand C r l s = .ok n ↔ Means C r.factor l s n := by
  unfold parseOperand
  by_cases h1 : s = "hard".toList
  · rw [if_pos h1]
    subst h1
    constructor
    · intro h; cases h; exact .hard
    · intro h
      generalize hg : "hard".toList = x at h
      cases h with
      | hard => rfl
      | soft => exact absurd hg (by decide)
      | unlimited => exact absurd hg (by decide)
      | number h => exact absurd hg.symm (numeral_word h).1
  · rw [if_neg h1]
    by_cases h2 : s = "soft".toList
    · rw [if_pos h2]
      subst h2
      constructor
      · intro h; cases h; exact .soft
      · intro h
        generalize hg : "soft".toList = x at h
        cases h with
        | hard => exact absurd hg (by decide)
        | soft => rfl
        | unlimited => exact absurd hg (by decide)
        | number h => exact absurd hg.symm (numeral_word h).2.1
    · rw [if_neg h2]
      by_cases h3 : s = "unlimited".toList
      · rw [if_pos h3]
        subst h3
        constructor
        · intro h; cases h; exact .unlimited
        · intro h
          generalize hg : "unlimited".toList = x at h
          cases h with
          | hard => exact absurd hg (by decide)
          | soft => exact absurd hg (by decide)
          | unlimited => rfl
          | number h => exact absurd hg.symm (numeral_word h).2.2
      · rw [if_neg h3]
        constructor
        · intro h
          cases s with
          | nil => cases h
          | cons c s =>
            simp only at h
            split at h
            · unfold xwcstoul at h
              split at h
              · cases h
              · rename_i v hv
                split at hv
                · rename_i hd
                  have hn := digits_value (c :: s) ⟨hd, by simp⟩
                  simp only at hv
                  split at hv
                  · rename_i hlt
                    cases hv
                    generalize (c :: s).foldl (fun n c => 10 * n + (c.toNat - 48)) 0 = v at *
                    split at h
                    · cases h
                    · rename_i hne
                      cases h
                      have g1 := number_value (C := C) hr (fun e => hne (.inl e))
                      have g1 : v * r.factor < C.rlimits := g1.resolve_right (by omega)
                      have g2 : v < C.rlimits := Nat.lt_of_le_of_lt (Nat.le_mul_of_pos_right v hr) g1
                      rw [Nat.mod_eq_of_lt g2, Nat.mod_eq_of_lt g1] at hne ⊢
                      exact .number hn hlt g1 ⟨fun e => hne (.inr (.inl e)), fun e => hne (.inr (.inr (.inl e))), fun e => hne (.inr (.inr (.inr e)))⟩
                  · cases hv
                · cases hv
            · cases h
        · intro h
          cases h with
          | hard => exact absurd rfl h1
          | soft => exact absurd rfl h2
          | unlimited => exact absurd rfl h3
          | @number _ v hn hlt g1 ho =>
            obtain ⟨d1, d2⟩ := numeral_digits hn
            cases s with
            | nil => exact absurd rfl d1
            | cons c s =>
              have hc : ('0' ≤ c && c ≤ '9') = true := List.all_eq_true.1 d2 c (by simp)
              have hv := numeral_unique (digits_value _ ⟨d2, d1⟩) hn
              simp only [hc, if_true]
              unfold xwcstoul
              simp only [d2, if_true, hv, hlt]
              have g2 : v < C.rlimits := Nat.lt_of_le_of_lt (Nat.le_mul_of_pos_right v hr) g1
              rw [Nat.mod_eq_of_lt g2, Nat.mod_eq_of_lt g1, if_neg]
              rintro (e | e | e | e)
              · exact e (Nat.mul_div_cancel v hr)
              · exact ho.1 e
              · exact ho.2.1 e
              · exact ho.2.2 e

theorem exceeds_iff (C : Config) (l : Limit) : exceeds C l = true ↔ Exceeds C l := by
  unfold exceeds Exceeds Ordinary
  simp only [Bool.and_eq_true, bne_iff_ne, Bool.or_eq_true, beq_iff_eq, decide_eq_true_iff]
  grind

/-! ## Setting limits -/

open Classical in
/-- `ulimit` with an operand: the selected limits of the chosen resource get the value that the operand means, if the soft limit is then not above the hard
limit and the system allows it. Nothing else changes, and nothing changes if there is an error. -/
theorem limit_set {C : Config} (hC : 0 < C.rlimits) (sys : System) {letters : List Char} {args : List Str} {operand : Str} (hu : Usage letters args [operand]) (ha : 'a' ∉ letters)
    {hard soft : Bool} (hs : Selects letters hard soft) {c : Char} {u : Nat} (hc : Chooses letters c u) (s : State) :
    ∃ s' st, ulimitBuiltin C sys args s = some (s', [], st) ∧
      (st ≠ .success → s' = s) ∧ (∀ d, d ≠ c → s' d = s d) ∧
      (st = .success ↔ sys.tells c = true ∧ ∃ n, Means C u (s c) operand n ∧ ¬Exceeds C ⟨if soft then n else (s c).cur, if hard then n else (s c).max⟩ ∧
        sys.allows s c ⟨if soft then n else (s c).cur, if hard then n else (s c).max⟩ = true) ∧
      ∀ n, st = .success → Means C u (s c) operand n → s' c = ⟨if soft then n else (s c).cur, if hard then n else (s c).max⟩ := by
  obtain ⟨r, hr, h⟩ := builtin_eq C sys hu ha hs s
  obtain ⟨r1, r2, r3⟩ := vars_resource hc
  rw [← hr] at r1 r2
  subst r1 r2
  rw [h]
  simp only
  have hop := operand_iff hC r r3 (s r.letter) operand
  by_cases ht : sys.tells r.letter = true
  · simp only [ht, if_true]
    cases hp : parseOperand C r (s r.letter) operand with
    | error st =>
      have hno : ∀ n, ¬Means C r.factor (s r.letter) operand n := fun n hm => by
        have := (hop n).2 hm
        rw [hp] at this
        cases this
      have hst : st ≠ .success := by
        rintro rfl
        unfold parseOperand at hp
        split at hp
        · cases hp
        split at hp
        · cases hp
        split at hp
        · cases hp
        split at hp
        · split at hp
          · split at hp
            · cases hp
            · simp only at hp
              split at hp <;> cases hp
          · cases hp
        · cases hp
      refine ⟨s, st, rfl, fun _ => rfl, fun _ _ => rfl, ⟨fun e => absurd e hst, ?_⟩, fun n e => absurd e hst⟩
      rintro ⟨-, n, hm, -⟩
      exact absurd hm (hno n)
    | ok value =>
      have hm := (hop value).1 hp
      have huniq : ∀ n, Means C r.factor (s r.letter) operand n → n = value := fun n hn => by
        have := (hop n).2 hn
        rw [hp] at this
        cases this
        rfl
      simp only
      by_cases hx : exceeds C ⟨if soft then value else (s r.letter).cur, if hard then value else (s r.letter).max⟩ = true
      · rw [if_pos hx]
        refine ⟨s, .failure, rfl, fun _ => rfl, fun _ _ => rfl, ⟨(fun e => by cases e), ?_⟩, fun n e => by cases e⟩
        rintro ⟨-, n, hn, g, -⟩
        rw [huniq n hn] at g
        exact absurd ((exceeds_iff _ _).1 hx) g
      · rw [if_neg hx]
        by_cases hal : sys.allows s r.letter ⟨if soft then value else (s r.letter).cur, if hard then value else (s r.letter).max⟩ = true
        · rw [if_pos hal]
          refine ⟨_, .success, rfl, fun e => absurd rfl e, fun d hd => by simp [hd], ⟨fun _ => ⟨trivial, value, hm, fun e => hx ((exceeds_iff _ _).2 e), hal⟩, fun _ => rfl⟩, ?_⟩
          intro n _ hn
          rw [huniq n hn]
          simp
        · rw [if_neg hal]
          refine ⟨s, .failure, rfl, fun _ => rfl, fun _ _ => rfl, ⟨(fun e => by cases e), ?_⟩, fun n e => by cases e⟩
          rintro ⟨-, n, hn, -, g⟩
          rw [huniq n hn] at g
          exact absurd g hal
  · simp only [ht, Bool.false_eq_true, if_false]
    exact ⟨s, .failure, rfl, fun _ => rfl, fun _ _ => rfl, ⟨(fun e => by cases e), (fun e => by simp at e)⟩, fun n e => by cases e⟩

/-- Whatever the arguments are, only a successful invocation changes a limit, it changes the limits of one resource only, and the soft limit is then not above the
hard limit. -/
theorem limit_changes (C : Config) (sys : System) (args : List Str) (s : State) {s' : State} {out : Str} {st : Status} (h : ulimitBuiltin C sys args s = some (s', out, st)) :
    s' = s ∨ (st = .success ∧ out = [] ∧ ∃ c, (∀ d, d ≠ c → s' d = s d) ∧ ¬Exceeds C (s' c) ∧ sys.allows s c (s' c) = true) := by
  unfold ulimitBuiltin at h
  simp only at h
  generalize List.foldl Vars.option1 _ _ = v at h
  split at h
  · cases h
  split at h
  · cases h; exact .inl rfl
  split at h
  · split at h
    · cases h; exact .inl rfl
    split at h
    · cases h; exact .inl rfl
    · cases h; exact .inl rfl
  split at h
  · split at h <;> (cases h; exact .inl rfl)
  · split at h
    · split at h
      · cases h; exact .inl rfl
      · generalize Limit.mk _ _ = l at h
        split at h
        · cases h; exact .inl rfl
        · split at h
          · rename_i hx hal
            cases h
            refine .inr ⟨rfl, rfl, _, fun d hd => if_neg hd, ?_, ?_⟩
            · simp only [if_true]
              intro e
              exact hx ((exceeds_iff _ _).2 e)
            · simp only [if_true]
              exact hal
          · cases h; exact .inl rfl
    · cases h; exact .inl rfl
  · cases h; exact .inl rfl

/-! ## Printing limits -/

/-- `ulimit` without an operand prints the soft limit (the hard limit with `-H`), in units and rounded down; nothing changes. -/
theorem limit_printed {C : Config} (sys : System) {letters : List Char} {args : List Str} (hu : Usage letters args []) (ha : 'a' ∉ letters)
    {hard soft : Bool} (hs : Selects letters hard soft) {c : Char} {u : Nat} (hc : Chooses letters c u) (s : State) (ht : sys.tells c = true) :
    ∃ text, ulimitBuiltin C sys args s = some (s, text ++ ['\n'], .success) ∧
      ((if soft then (s c).cur else (s c).max) = C.infinity → text = "unlimited".toList) ∧
      ((if soft then (s c).cur else (s c).max) ≠ C.infinity → Numeral text ((if soft then (s c).cur else (s c).max) / u)) := by
  obtain ⟨r, hr, h⟩ := builtin_eq C sys hu ha hs s
  obtain ⟨r1, r2, r3⟩ := vars_resource hc
  rw [← hr] at r1 r2
  subst r1 r2
  rw [h]
  simp only [ht, if_true, printValue]
  by_cases hi : (if soft then (s r.letter).cur else (s r.letter).max) = C.infinity
  · rw [if_pos hi]
    exact ⟨"unlimited".toList, rfl, fun _ => rfl, fun e => absurd hi e⟩
  · rw [if_neg hi]
    exact ⟨_, rfl, fun e => absurd e hi, fun _ => decimal_numeral _⟩

/-- Setting a limit to what was printed: the limit is the same up to less than a unit, and never larger. -/
theorem printed_restores {C : Config} (hC : 0 < C.rlimits) (hw : C.rlimits ≤ C.ulongs) (sys : System) {letters : List Char} {args : List Str} (hu : Usage letters args []) (ha : 'a' ∉ letters)
    {hard soft : Bool} (hs : Selects letters hard soft) {c : Char} {u : Nat} (hc : Chooses letters c u) (s : State) (ht : sys.tells c = true)
    {old : Nat} (hold : old = if soft then (s c).cur else (s c).max) (hr : old < C.rlimits) (ho : old ≠ C.infinity → Ordinary C (old / u * u)) :
    ∃ text, ulimitBuiltin C sys args s = some (s, text ++ ['\n'], .success) ∧
      ∀ l, ∃ new, Means C u l text new ∧ (old = C.infinity → new = C.infinity) ∧ (old ≠ C.infinity → new ≤ old ∧ old < new + u ∧ new % u = 0) := by
  obtain ⟨text, h1, h2, h3⟩ := limit_printed sys hu ha hs hc s ht (C := C)
  rw [← hold] at h2 h3
  refine ⟨text, h1, fun l => ?_⟩
  obtain ⟨-, -, hpos⟩ := vars_resource hc
  by_cases hi : old = C.infinity
  · rw [h2 hi]
    exact ⟨_, .unlimited, fun _ => rfl, fun e => absurd hi e⟩
  · have hle := Nat.div_mul_le_self old u
    have hmod := Nat.div_add_mod' old u
    have hlt := Nat.mod_lt old hpos
    have hdiv := Nat.div_le_self old u
    refine ⟨old / u * u, .number (h3 hi) (by omega) (by omega) (ho hi), fun e => absurd e hi, fun _ => ⟨hle, by omega, ?_⟩⟩
    exact Nat.mul_mod_left _ _

/-- Superfluous operands, and `-a` with an operand or with an option for a resource, are errors. -/
theorem usage_errors (C : Config) (sys : System) {letters : List Char} {args ops : List Str} (hu : Usage letters args ops)
    (h : ('a' ∉ letters ∧ 1 < ops.length) ∨ ('a' ∈ letters ∧ (ops ≠ [] ∨ ∃ c ∈ letters, unit c ≠ none))) (s : State) : ulimitBuiltin C sys args s = some (s, [], .error) := by
  obtain ⟨rs, used, h1, h2, h3⟩ := read_usage C hu
  have h4 : (rs.any fun o => o.1.short == '-') = false := by
    rw [Bool.eq_false_iff]
    intro hx
    obtain ⟨o, g1, g2⟩ := List.any_eq_true.1 hx
    apply h3
    rw [← h2]
    exact List.mem_map.2 ⟨o, g1, by simpa using g2⟩
  unfold ulimitBuiltin
  simp only [h1, h4, h2, Bool.false_eq_true, if_false]
  rw [show (⟨true, true, none, fsize, false⟩ : Vars) = initVars from rfl]
  rcases h with ⟨ha, hl⟩ | ⟨ha, h⟩
  · have h5 : (letters.foldl Vars.option1 initVars).all = false := by
      rw [vars_all]
      simpa [initVars] using ha
    simp only [h5, Bool.false_eq_true, if_false]
    match ops, hl with
    | _ :: _ :: _, _ => rfl
  · have h5 : (letters.foldl Vars.option1 initVars).all = true := by
      rw [vars_all]
      simpa [initVars] using ha
    simp only [h5, if_true]
    split
    · rfl
    · rename_i hn
      rcases h with h | ⟨c, hc, hcu⟩
      · rw [if_pos]
        cases ops <;> simp_all
      · exfalso
        apply hn
        have hkeep : ∀ (l : List Char) (v : Vars), v.option.isSome = true → (l.foldl Vars.option1 v).option.isSome = true := by
          intro l
          induction l with
          | nil => intro v hv; exact hv
          | cons d l ih =>
            intro v hv
            refine ih _ ?_
            unfold Vars.option1
            split
            · exact hv
            split
            · exact hv
            split
            · exact hv
            split
            · rfl
            · exact hv
        obtain ⟨b, a, rfl⟩ := List.append_of_mem hc
        rw [List.foldl_append, List.foldl_cons]
        apply hkeep
        cases hu' : unit c with
        | none => exact absurd hu' hcu
        | some u => rw [(option_resource _ hu').2.2.1]; rfl

/-- `ulimit -a` prints a line for each resource whose limits the system tells, and succeeds if these are all. -/
theorem all_printed (C : Config) (sys : System) {letters : List Char} {args : List Str} (hu : Usage letters args []) (ha : 'a' ∈ letters) (hn : ∀ c ∈ letters, unit c = none)
    {hard soft : Bool} (hs : Selects letters hard soft) (s : State) :
    ∃ (lines : List (Char × Str × Str)) (st : Status), ulimitBuiltin C sys args s = some (s, lines.flatMap fun l => '-' :: l.1 :: ": ".toList ++ l.2.1 ++ l.2.2 ++ ['\n'], st) ∧
      (lines.map (·.1)).Nodup ∧ (∀ c, c ∈ lines.map (·.1) ↔ unit c ≠ none ∧ sys.tells c = true) ∧ (st = .success ↔ ∀ c, unit c ≠ none → sys.tells c = true) ∧
      ∀ l ∈ lines, ∀ u, unit l.1 = some u →
        ((if soft then (s l.1).cur else (s l.1).max) = C.infinity → l.2.2 = "unlimited".toList) ∧
        ((if soft then (s l.1).cur else (s l.1).max) ≠ C.infinity → Numeral l.2.2 ((if soft then (s l.1).cur else (s l.1).max) / u)) := by
  obtain ⟨rs, used, h1, h2, h3⟩ := read_usage C hu
  have h4 : (rs.any fun o => o.1.short == '-') = false := by
    rw [Bool.eq_false_iff]
    intro hx
    obtain ⟨o, g1, g2⟩ := List.any_eq_true.1 hx
    apply h3
    rw [← h2]
    exact List.mem_map.2 ⟨o, g1, by simpa using g2⟩
  have h5 : (letters.foldl Vars.option1 initVars).all = true := by
    rw [vars_all]
    simpa [initVars] using ha
  have h6 : (letters.foldl Vars.option1 initVars).option = none := by
    rw [(keep_resource _ _ hn).2]
    rfl
  obtain ⟨-, p2⟩ := vars_parts hs
  have hp : ∀ rs : List Resource, printAll C sys soft s rs = ((rs.filter fun r => sys.tells r.letter).flatMap fun r => '-' :: r.letter :: ": ".toList ++ pad30 r.description ++ ' ' :: printValue C soft (s r.letter) r,
      rs.all fun r => sys.tells r.letter) := by
    intro rs
    induction rs with
    | nil => rfl
    | cons r rs ih => by_cases ht : sys.tells r.letter = true <;> simp [printAll, ih, ht]
  have hl : ∀ r ∈ resources, unit r.letter ≠ none := by decide +kernel
  have hall : (resources.all fun r => sys.tells r.letter) = true ↔ ∀ c, unit c ≠ none → sys.tells c = true := by
    rw [List.all_eq_true]
    constructor
    · intro h c hc
      cases hc' : unit c with
      | none => exact absurd hc' hc
      | some u =>
        obtain ⟨r, hr, he, -⟩ := unit_resource hc'
        have := h r (List.mem_of_find?_eq_some hr)
        rwa [he] at this
    · exact fun h r hr => h _ (hl r hr)
  let value : Resource → Str := fun r => if (if soft then (s r.letter).cur else (s r.letter).max) = C.infinity then "unlimited".toList else Nat.toDigits 10 ((if soft then (s r.letter).cur else (s r.letter).max) / r.factor)
  have hv : ∀ r, printValue C soft (s r.letter) r = value r ++ ['\n'] := by
    intro r
    unfold printValue
    simp only [value]
    by_cases hi : (if soft then (s r.letter).cur else (s r.letter).max) = C.infinity
    · rw [if_pos hi, if_pos hi]; rfl
    · rw [if_neg hi, if_neg hi]
  refine ⟨(resources.filter fun r => sys.tells r.letter).map fun r => (r.letter, pad30 r.description ++ [' '], value r), if (resources.all fun r => sys.tells r.letter) then .success else .failure, ?_, ?_, ?_, ?_, ?_⟩
  · unfold ulimitBuiltin
    simp only [h1, h4, h2, Bool.false_eq_true, if_false]
    rw [show (⟨true, true, none, fsize, false⟩ : Vars) = initVars from rfl]
    simp only [h5, h6, p2, if_true, Option.isSome_none, Bool.false_eq_true, if_false, List.isEmpty_nil, Bool.not_true, hp, hv]
    rw [List.flatMap_map]
    simp
  · rw [List.map_map]
    have hnd : (resources.map fun r => r.letter).Nodup := by decide +kernel
    exact (List.filter_sublist.map _).nodup hnd
  · intro c
    rw [List.map_map]
    constructor
    · intro h
      obtain ⟨r, hr, rfl⟩ := List.mem_map.1 h
      exact ⟨hl r (List.mem_filter.1 hr).1, (List.mem_filter.1 hr).2⟩
    · rintro ⟨h, ht⟩
      cases hc : unit c with
      | none => exact absurd hc h
      | some u =>
        obtain ⟨r, hr, he, -⟩ := unit_resource hc
        exact List.mem_map.2 ⟨r, List.mem_filter.2 ⟨List.mem_of_find?_eq_some hr, by rw [he]; exact ht⟩, he⟩
  · rw [← hall]
    split
    · rename_i h; simp [h]
    · rename_i h; simp [h]
  · intro l hl u hlu
    obtain ⟨r, hr, rfl⟩ := List.mem_map.1 hl
    have hf : ∀ r ∈ resources, unit r.letter = some r.factor := by decide +kernel
    have := hf r (List.mem_filter.1 hr).1
    simp only at hlu ⊢
    rw [this] at hlu
    cases hlu
    constructor
    · intro e
      simp only [value, if_pos e]
    · intro e
      simp only [value, if_neg e]
      exact decimal_numeral _

end Yash.Ulimit
