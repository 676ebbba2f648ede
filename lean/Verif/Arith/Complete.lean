import Verif.Arith.OpLemmas
/-!
# The parser evaluates every derivable token string as the specification says
-/
set_option autoImplicit false

namespace Yash.Arith

open Spec (Expr NT Derives)

section
variable {D E : Type} (cfg : Cfg D E)

/-- The function that parses a nonterminal. -/
def parseNT : NT → Nat → Info E → Value D × Info E
  | .assignment => parseAssignment cfg
  | .conditional => parseConditional cfg
  | .logicalOr => parseLogicalOr cfg
  | .logicalAnd => parseLogicalAnd cfg
  | .inclusiveOr => fun n => parseBinary cfg n .or
  | .exclusiveOr => fun n => parseBinary cfg n .xor
  | .and => fun n => parseBinary cfg n .and
  | .equality => fun n => parseBinary cfg n .equality
  | .relational => fun n => parseBinary cfg n .relational
  | .shift => fun n => parseBinary cfg n .shift
  | .additive => fun n => parseBinary cfg n .additive
  | .multiplicative => fun n => parseBinary cfg n .multiplicative
  | .prefix => parsePrefix cfg
  | .postfix => parsePostfix cfg
  | .primary => parsePrimary cfg

def rank : NT → Nat
  | .assignment => 0
  | .conditional => 1
  | .logicalOr => 3
  | .logicalAnd => 4
  | .inclusiveOr => 5
  | .exclusiveOr => 6
  | .and => 7
  | .equality => 8
  | .relational => 9
  | .shift => 10
  | .additive => 11
  | .multiplicative => 12
  | .prefix => 13
  | .postfix => 14
  | .primary => 15

/-- The rank of the nonterminal whose loop continues at a token. -/
def cont : Tok → Option Nat
  | .assign _ => some 0
  | .question => some 1
  | .pipepipe => some 3
  | .ampamp => some 4
  | .calc (.op2 .bor) => some 5
  | .calc (.op2 .bxor) => some 6
  | .calc (.op2 .band) => some 7
  | .cmp .eq | .cmp .ne => some 8
  | .cmp _ => some 9
  | .calc (.op2 .shl) | .calc (.op2 .shr) => some 10
  | .calc (.op1 .add) | .calc (.op1 .sub) => some 11
  | .calc (.op1 .mul) | .calc (.op1 .div) | .calc (.op1 .mod) => some 12
  | .plusplus | .minusminus => some 14
  | _ => none

/-- No loop of rank `r` or more continues at the tokens `v`. -/
def Stop (r : Nat) (v : List Tok) : Prop :=
  ∀ t, v.head? = some t → t ≠ .invalid ∧ ∀ k, cont t = some k → k < r

theorem Stop.mono {r r' : Nat} {v : List Tok} (h : Stop r v) (hr : r ≤ r') : Stop r' v :=
  fun t ht => ⟨(h t ht).1, fun k hk => Nat.lt_of_lt_of_le ((h t ht).2 k hk) hr⟩

theorem Stop.cons {r k : Nat} {t : Tok} {v : List Tok} (h1 : t ≠ .invalid) (h : cont t = some k)
    (hk : k < r) : Stop r (t :: v) := by
  intro t' ht; simp only [List.head?_cons, Option.some.injEq] at ht; subst ht
  exact ⟨h1, fun k' hk' => by rw [h] at hk'; cases hk'; exact hk⟩

theorem Stop.cons_none {r : Nat} {t : Tok} {v : List Tok} (h1 : t ≠ .invalid) (h : cont t = none) :
    Stop r (t :: v) := by
  intro t' ht; simp only [List.head?_cons, Option.some.injEq] at ht; subst ht
  exact ⟨h1, fun k' hk' => by rw [h] at hk'; cases hk'⟩

theorem Stop.head {r : Nat} {v : List Tok} (h : Stop r v) {t : Tok} {k : Nat}
    (hc : cont t = some k) (hk : r ≤ k) : v.head? ≠ some t := by
  intro he
  have := (h t he).2 k hc
  omega

theorem Stop.valid {r : Nat} {v : List Tok} (h : Stop r v) : v.head? ≠ some .invalid :=
  fun he => (h _ he).1 rfl

theorem stop_nil (r : Nat) : Stop r [] := fun t h => by simp at h

theorem derives_ok {nt : NT} {u : List Tok} {e : Expr} (h : Derives nt u e) :
    1 ≤ u.length ∧ ∀ v, (u ++ v).head? ≠ some .invalid := by
  induction h with
  | num | ident => simp
  | paren => simp
  | inc _ ih | dec _ ih => refine ⟨by simp, fun v => ?_⟩; rw [List.append_assoc]; exact ih.2 _
  | pre hp _ ih => cases hp <;> simp
  | binary hb _ _ ih1 ih2 =>
    refine ⟨by simp only [List.length_append]; omega, fun v => ?_⟩
    rw [List.append_assoc, List.append_assoc]; exact ih1.2 _
  | cond _ _ _ ih1 ih2 ih3 =>
    refine ⟨by simp only [List.length_append]; omega, fun v => ?_⟩
    simp only [List.append_assoc]; exact ih1.2 _
  | assign _ _ _ ih1 ih2 =>
    refine ⟨by simp only [List.length_append]; omega, fun v => ?_⟩
    simp only [List.append_assoc]; exact ih1.2 _
  | chain _ _ ih => exact ih

theorem next_cons {t : Tok} {w : List Tok} {po : Bool} {st : St E}
    (h : w.head? ≠ some .invalid) : (⟨t :: w, po, st⟩ : Info E).next = ⟨w, po, st⟩ := by
  simp [Info.next, reach, h]

/-- The effect of an expression, evaluated or not. -/
noncomputable def run (po : Bool) (e : Expr) (st : St E) : Value D × St E :=
  if po then (.invalid, Spec.skip cfg e st) else Spec.eval cfg e st

/-- The parser of a nonterminal evaluates `u`. -/
def Finished (nt : NT) (u : List Tok) (e : Expr) : Prop :=
  ∀ (F : Nat) (v : List Tok) (po : Bool) (st : St E), 20 * u.length + 20 - rank nt ≤ F →
    Stop (rank nt) v →
    parseNT cfg nt F ⟨u ++ v, po, st⟩ = ((run cfg po e st).1, ⟨v, po, (run cfg po e st).2⟩)

def lorBody (n : Nat) (i : Info E) : Value D × Info E :=
  match parseLogicalAnd cfg n i with
  | (v, i1) => logicalOrLoop cfg n v i1

def landBody (n : Nat) (i : Info E) : Value D × Info E :=
  match parseBinary cfg n .or i with
  | (v, i1) => logicalAndLoop cfg n v i1

/-- The level of a nonterminal. -/
def levelOf : NT → Option Level
  | .inclusiveOr => some .or
  | .exclusiveOr => some .xor
  | .and => some .and
  | .equality => some .equality
  | .relational => some .relational
  | .shift => some .shift
  | .additive => some .additive
  | .multiplicative => some .multiplicative
  | _ => none

/-- The induction hypothesis: for loops, the parser has arrived at the loop with the value of `u`. -/
def Reached (nt : NT) (u : List Tok) (e : Expr) : Prop :=
  match nt with
  | .conditional =>
    ∀ (F : Nat) (v : List Tok) (po : Bool) (st : St E) (res : Value D), 20 * u.length + 18 ≤ F →
      Stop 1 v → ∃ po', conditionalLoop cfg F res ⟨u ++ v, po, st⟩
        = ((if po then res else (run cfg po e st).1), ⟨v, po', (run cfg po e st).2⟩)
  | .logicalOr =>
    ∀ (F : Nat) (v : List Tok) (po : Bool) (st : St E), 20 * u.length + 16 ≤ F → Stop 4 v →
      ∃ m po', F ≤ m + u.length
        ∧ (po' = po ∨ (run cfg po e st).1 = .invalid ∨ (run cfg po e st).1 = .long .one)
        ∧ lorBody cfg F ⟨u ++ v, po, st⟩
          = logicalOrLoop cfg m (run cfg po e st).1 ⟨v, po', (run cfg po e st).2⟩
  | .logicalAnd =>
    ∀ (F : Nat) (v : List Tok) (po : Bool) (st : St E), 20 * u.length + 15 ≤ F → Stop 5 v →
      ∃ m po', F ≤ m + u.length
        ∧ (po' = po ∨ (run cfg po e st).1 = .invalid ∨ (run cfg po e st).1 = .long .zero)
        ∧ landBody cfg F ⟨u ++ v, po, st⟩
          = logicalAndLoop cfg m (run cfg po e st).1 ⟨v, po', (run cfg po e st).2⟩
  | .postfix =>
    ∀ (F : Nat) (v : List Tok) (po : Bool) (st : St E), 20 * u.length + 6 ≤ F →
      v.head? ≠ some .invalid →
      ∃ m, F ≤ m + u.length + 1 ∧ parsePostfix cfg F ⟨u ++ v, po, st⟩
          = postfixLoop cfg m (run cfg po e st).1 ⟨v, po, (run cfg po e st).2⟩
  | nt =>
    match levelOf nt with
    | some l =>
      ∀ (F : Nat) (v : List Tok) (po : Bool) (st : St E), 20 * u.length + 20 - rank nt ≤ F →
        Stop (rank nt + 1) v →
        ∃ m, F ≤ m + u.length + 1 ∧ parseBinary cfg F l ⟨u ++ v, po, st⟩
          = binaryLoop cfg m l (run cfg po e st).1 ⟨v, po, (run cfg po e st).2⟩
    | none => Finished cfg nt u e

theorem succ_of_pos {n : Nat} (h : 1 ≤ n) : ∃ k, n = k + 1 := ⟨n - 1, by omega⟩

theorem binaryLoop_stop {m : Nat} (hm : 1 ≤ m) (l : Level) (x : Value D) (i : Info E)
    (h : i.tok.bind (l.operator cfg) = none) : binaryLoop cfg m l x i = (x, i) := by
  obtain ⟨k, rfl⟩ := succ_of_pos hm
  rw [binaryLoop, h]

theorem operator_cont {l : Level} {t : Tok} {op : Value D → Value D → St E → Value D × St E}
    (h : l.operator cfg t = some op) {nt : NT} (hl : levelOf nt = some l) :
    cont t = some (rank nt) := by
  cases nt <;> simp only [levelOf, Option.some.injEq, reduceCtorEq] at hl <;> subst hl <;>
    simp only [Level.operator] at h <;> split at h <;> first | rfl | simp_all

theorem finished_of_level {nt : NT} {u : List Tok} {e : Expr} {l : Level}
    (hl : levelOf nt = some l)
    (hp : ∀ F i, parseNT cfg nt F i = parseBinary cfg F l i) (hr : rank nt ≤ 12)
    (h : ∀ (F : Nat) (v : List Tok) (po : Bool) (st : St E), 20 * u.length + 20 - rank nt ≤ F →
        Stop (rank nt + 1) v →
        ∃ m, F ≤ m + u.length + 1 ∧ parseBinary cfg F l ⟨u ++ v, po, st⟩
          = binaryLoop cfg m l (run cfg po e st).1 ⟨v, po, (run cfg po e st).2⟩) :
    Finished cfg nt u e := by
  intro F v po st hF hs
  obtain ⟨m, hm, he⟩ := h F v po st hF (hs.mono (by omega))
  rw [hp, he, binaryLoop_stop cfg (by omega)]
  simp only [Info.tok]
  cases hv : v.head? with
  | none => rfl
  | some t =>
    simp only [Option.bind_some]
    cases ho : l.operator cfg t with
    | none => rfl
    | some op => exact absurd ((hs t hv).2 _ (operator_cont cfg ho hl)) (by omega)

theorem logicalOrLoop_stop {m : Nat} (hm : 1 ≤ m) (x : Value D) (i : Info E)
    (h : i.tok ≠ some .pipepipe) : logicalOrLoop cfg m x i = (x, i) := by
  obtain ⟨k, rfl⟩ := succ_of_pos hm
  rw [logicalOrLoop, if_pos h]

theorem logicalAndLoop_stop {m : Nat} (hm : 1 ≤ m) (x : Value D) (i : Info E)
    (h : i.tok ≠ some .ampamp) : logicalAndLoop cfg m x i = (x, i) := by
  obtain ⟨k, rfl⟩ := succ_of_pos hm
  rw [logicalAndLoop, if_pos h]

theorem postfixLoop_stop {m : Nat} (hm : 1 ≤ m) (x : Value D) (i : Info E)
    (h : i.tok ≠ some .plusplus) (h' : i.tok ≠ some .minusminus) :
    postfixLoop cfg m x i = (x, i) := by
  obtain ⟨k, rfl⟩ := succ_of_pos hm
  rw [postfixLoop]
  split <;> simp_all

theorem parseLogicalOr_body (n : Nat) (i : Info E) :
    parseLogicalOr cfg (n + 1) i
      = ((lorBody cfg n i).1, { (lorBody cfg n i).2 with parseonly := i.parseonly }) := by
  rw [parseLogicalOr, lorBody]

theorem parseLogicalAnd_body (n : Nat) (i : Info E) :
    parseLogicalAnd cfg (n + 1) i
      = ((landBody cfg n i).1, { (landBody cfg n i).2 with parseonly := i.parseonly }) := by
  rw [parseLogicalAnd, landBody]

theorem finished_of_reached {nt : NT} {u : List Tok} {e : Expr} (h : Reached cfg nt u e) :
    Finished cfg nt u e := by
  cases nt with
  | assignment | «prefix» | primary => exact h
  | conditional =>
    intro F v po st hF hs
    simp only [rank] at hF hs
    obtain ⟨k, rfl⟩ := succ_of_pos (show 1 ≤ F by omega)
    obtain ⟨po', he⟩ := h k v po st .invalid (by omega) hs
    simp only [parseNT]
    rw [parseConditional, he]
    cases po <;> simp [run]
  | logicalOr =>
    intro F v po st hF hs
    simp only [rank] at hF hs
    obtain ⟨k, rfl⟩ := succ_of_pos (show 1 ≤ F by omega)
    obtain ⟨m, po', hm, _, he⟩ := h k v po st (by omega) (hs.mono (by omega))
    simp only [parseNT]
    rw [parseLogicalOr_body, he, logicalOrLoop_stop cfg (by omega)]
    exact hs.head (k := 3) rfl (by omega)
  | logicalAnd =>
    intro F v po st hF hs
    simp only [rank] at hF hs
    obtain ⟨k, rfl⟩ := succ_of_pos (show 1 ≤ F by omega)
    obtain ⟨m, po', hm, _, he⟩ := h k v po st (by omega) (hs.mono (by omega))
    simp only [parseNT]
    rw [parseLogicalAnd_body, he, logicalAndLoop_stop cfg (by omega)]
    exact hs.head (k := 4) rfl (by omega)
  | «postfix» =>
    intro F v po st hF hs
    simp only [rank] at hF hs
    obtain ⟨m, hm, he⟩ := h F v po st (by omega) hs.valid
    simp only [parseNT]
    rw [he, postfixLoop_stop cfg (by omega)]
    · exact hs.head (k := 14) rfl (by omega)
    · exact hs.head (k := 14) rfl (by omega)
  | inclusiveOr | exclusiveOr | and | equality | relational | shift | additive | multiplicative =>
    exact finished_of_level cfg rfl (fun _ _ => rfl) (by decide) h

/-! ## Evaluation of compound expressions -/

theorem skip_skip (a b : Expr) (st : St E) {e : Expr}
    (h : Spec.wellFormed cfg e = (Spec.wellFormed cfg a && Spec.wellFormed cfg b)) :
    Spec.skip cfg e st = Spec.skip cfg b (Spec.skip cfg a st) := by
  simp only [Spec.skip, h]
  cases st.err <;> cases Spec.wellFormed cfg a <;> cases Spec.wellFormed cfg b <;> rfl

theorem arithValue_invalid (op : Op1) (st : St E) :
    Spec.arithValue cfg op .invalid .invalid st = (.invalid, st) := rfl
theorem bitsValue_invalid (op : Op2) (st : St E) :
    Spec.bitsValue cfg op .invalid .invalid st = (.invalid, st) := rfl
theorem compareValue_invalid (op : Cmp) (st : St E) :
    Spec.compareValue cfg op .invalid .invalid st = (.invalid, st) := rfl

theorem run_arith (op : Op1) (po : Bool) (a b : Expr) (st : St E) :
    run cfg po (.arith op a b) st = doBinaryCalculation cfg (.op1 op) (run cfg po a st).1
      (run cfg po b (run cfg po a st).2).1 (run cfg po b (run cfg po a st).2).2 := by
  rw [arithValue_eq]
  cases po
  · simp only [run, Bool.false_eq_true, if_false, Spec.eval]
  · simp only [run, if_true, arithValue_invalid]
    rw [skip_skip cfg a b]; rfl

theorem run_bits (op : Op2) (po : Bool) (a b : Expr) (st : St E) :
    run cfg po (.bits op a b) st = doBinaryCalculation cfg (.op2 op) (run cfg po a st).1
      (run cfg po b (run cfg po a st).2).1 (run cfg po b (run cfg po a st).2).2 := by
  rw [bitsValue_eq]
  cases po
  · simp only [run, Bool.false_eq_true, if_false, Spec.eval]
  · simp only [run, if_true, bitsValue_invalid]
    rw [skip_skip cfg a b]; rfl

theorem run_compare (op : Cmp) (po : Bool) (a b : Expr) (st : St E) :
    run cfg po (.compare op a b) st = doComparison cfg op (run cfg po a st).1
      (run cfg po b (run cfg po a st).2).1 (run cfg po b (run cfg po a st).2).2 := by
  rw [compareValue_eq]
  cases po
  · simp only [run, Bool.false_eq_true, if_false, Spec.eval]
  · simp only [run, if_true, compareValue_invalid]
    rw [skip_skip cfg a b]; rfl

theorem run_binary {n m : NT} {t : Tok} {f : Expr → Expr → Expr} (hb : Spec.Binary n t m f)
    {l : Level} (hl : levelOf n = some l) :
    t ≠ .invalid ∧ cont t = some (rank n) ∧
    ((∃ l', l.next = some l' ∧ ∀ F i, parseBinary cfg F l' i = parseNT cfg m F i)
      ∨ (l.next = none ∧ ∀ F i, parsePrefix cfg F i = parseNT cfg m F i)) ∧ rank m = rank n + 1 ∧
    ∃ op, l.operator cfg t = some op ∧ ∀ (po : Bool) (a b : Expr) (st : St E),
      run cfg po (f a b) st = op (run cfg po a st).1
        (run cfg po b (run cfg po a st).2).1 (run cfg po b (run cfg po a st).2).2 := by
  cases hb <;> simp only [levelOf, reduceCtorEq, Option.some.injEq] at hl <;> subst hl <;>
    refine ⟨by simp, rfl, by first
        | exact Or.inl ⟨_, rfl, fun _ _ => rfl⟩
        | exact Or.inr ⟨rfl, fun _ _ => rfl⟩, rfl, _, rfl, fun po a b st => ?_⟩ <;>
    first
      | exact run_arith cfg _ po a b st
      | exact run_bits cfg _ po a b st
      | exact run_compare cfg _ po a b st

theorem reached_level {nt : NT} {l : Level} (hl : levelOf nt = some l) {u : List Tok} {e : Expr} :
    Reached cfg nt u e ↔
      ∀ (F : Nat) (v : List Tok) (po : Bool) (st : St E), 20 * u.length + 20 - rank nt ≤ F →
        Stop (rank nt + 1) v →
        ∃ m, F ≤ m + u.length + 1 ∧ parseBinary cfg F l ⟨u ++ v, po, st⟩
          = binaryLoop cfg m l (run cfg po e st).1 ⟨v, po, (run cfg po e st).2⟩ := by
  cases nt <;> simp only [levelOf, reduceCtorEq, Option.some.injEq] at hl <;> subst hl <;> exact Iff.rfl

theorem level_rank {nt : NT} {l : Level} (hl : levelOf nt = some l) : 5 ≤ rank nt ∧ rank nt ≤ 12 := by
  cases nt <;> simp only [levelOf, reduceCtorEq] at hl <;> decide

theorem reached_binary_level {n m : NT} {t : Tok} {f : Expr → Expr → Expr} {l : Level}
    {u w : List Tok} {a b : Expr} (hb : Spec.Binary n t m f) (hl : levelOf n = some l)
    (hw : Derives m w b) (iha : Reached cfg n u a) (ihb : Finished cfg m w b) :
    Reached cfg n (u ++ [t] ++ w) (f a b) := by
  obtain ⟨hti, htc, hnext, hrank, op, hop, hrun⟩ := run_binary cfg hb hl
  have hr := level_rank hl
  rw [reached_level cfg hl] at iha ⊢
  intro F v po st hF hs
  simp only [List.length_append, List.length_singleton] at hF ⊢
  obtain ⟨k, hk, he⟩ := iha F ([t] ++ w ++ v) po st (by omega) (Stop.cons hti htc (by omega))
  obtain ⟨k, rfl⟩ := succ_of_pos (show 1 ≤ k by omega)
  refine ⟨k, by omega, ?_⟩
  have e1 : u ++ [t] ++ w ++ v = u ++ ([t] ++ w ++ v) := by simp
  rw [e1, he, binaryLoop]
  have htok : (Info.tok ⟨[t] ++ w ++ v, po, (run cfg po a st).2⟩ : Option Tok) = some t := rfl
  simp only [htok, Option.bind_some, hop]
  have hn : (Info.next ⟨[t] ++ w ++ v, po, (run cfg po a st).2⟩ : Info E)
      = ⟨w ++ v, po, (run cfg po a st).2⟩ := next_cons ((derives_ok hw).2 v)
  have hB := ihb k v po (run cfg po a st).2 (by omega) (by rw [hrank]; exact hs)
  rw [hn]
  rcases hnext with ⟨l', hl', hp⟩ | ⟨hl', hp⟩
  · simp only [hl', hp, hB, hrun]
  · simp only [hl', hp, hB, hrun]

theorem number_invalid (st : St E) : Spec.number cfg (.invalid : Value D) st = (.invalid, st) := rfl
theorem number_long (n : Long) (st : St E) :
    Spec.number cfg (.long n : Value D) st = (.long n, st) := rfl

theorem ofBool_true : (Spec.ofBool true : Value D) = .long .one := rfl
theorem ofBool_false : (Spec.ofBool false : Value D) = .long .zero := rfl

theorem reached_or {u w : List Tok} {a b : Expr} (hw : Derives .logicalAnd w b)
    (iha : Reached cfg .logicalOr u a) (ihb : Finished cfg .logicalAnd w b) :
    Reached cfg .logicalOr (u ++ [.pipepipe] ++ w) (.or a b) := by
  intro F v po st hF hs
  simp only [List.length_append, List.length_singleton] at hF ⊢
  obtain ⟨k, po', hk, hpo, he⟩ := iha F ([.pipepipe] ++ w ++ v) po st (by omega)
    (Stop.cons (k := 3) (by simp) rfl (by omega))
  obtain ⟨k, rfl⟩ := succ_of_pos (show 1 ≤ k by omega)
  have e1 : u ++ [Tok.pipepipe] ++ w ++ v = u ++ ([.pipepipe] ++ w ++ v) := by simp
  rw [e1, he, logicalOrLoop]
  have htok : (Info.tok ⟨[.pipepipe] ++ w ++ v, po', (run cfg po a st).2⟩ : Option Tok)
      = some .pipepipe := rfl
  have hn : ∀ st', (Info.next ⟨[.pipepipe] ++ w ++ v, po', st'⟩ : Info E)
      = ⟨w ++ v, po', st'⟩ := fun _ => next_cons ((derives_ok hw).2 v)
  rw [if_neg (by rw [htok]; simp)]
  simp only [coerceNumber_eq, truth_eq, hn]
  have hB := fun p s => ihb k v p s (by simp only [rank]; omega) (by simp only [rank]; exact hs)
  simp only [parseNT] at hB
  simp only [hB]
  cases po with
  | true =>
    refine ⟨k, po' || true, by omega, Or.inr (Or.inl (by simp [run])), ?_⟩
    have hsk : Spec.skip cfg (.or a b) st = Spec.skip cfg b (Spec.skip cfg a st) :=
      skip_skip cfg a b st rfl
    simp [run, number_invalid, Spec.nonzero, hsk]
  | false =>
    have hra : run cfg false a st = Spec.eval cfg a st := by simp [run]
    have hro : run cfg false (.or a b) st = Spec.eval cfg (.or a b) st := by simp [run]
    rw [hro]
    rw [hra] at hpo ⊢
    simp only [Spec.eval]
    generalize Spec.eval cfg a st = ra at *
    obtain ⟨x, st1⟩ := ra
    simp only at hpo ⊢
    cases hx : Spec.number cfg x st1 with
    | mk x' st2 =>
      simp only
      cases hz : Spec.nonzero cfg x' with
      | none =>
        refine ⟨k, po' || true, by omega, Or.inr (Or.inl rfl), ?_⟩
        simp [run, number_invalid]
      | some z =>
        cases z with
        | true =>
          refine ⟨k, po' || true, by omega, Or.inr (Or.inr rfl), ?_⟩
          simp [run, number_invalid, ← ofBool_eq]
        | false =>
          have hpo' : po' = false := by
            rcases hpo with h | h | h
            · exact h
            · subst h; simp only [number_invalid, Prod.mk.injEq] at hx
              rw [← hx.1] at hz; simp [Spec.nonzero] at hz
            · subst h; simp only [number_long, Prod.mk.injEq] at hx
              rw [← hx.1] at hz; simp [Spec.nonzero, Long.one] at hz
          subst hpo'
          refine ⟨k, false, by omega, Or.inl rfl, ?_⟩
          simp only [Option.getD_some, Bool.or_false, run, Bool.false_eq_true, if_false]
          cases Spec.number cfg (Spec.eval cfg b st2).1 (Spec.eval cfg b st2).2 with
          | mk y st3 =>
            simp only
            cases Spec.nonzero cfg y <;> simp [ofBool_eq]

theorem reached_and {u w : List Tok} {a b : Expr} (hw : Derives .inclusiveOr w b)
    (iha : Reached cfg .logicalAnd u a) (ihb : Finished cfg .inclusiveOr w b) :
    Reached cfg .logicalAnd (u ++ [.ampamp] ++ w) (.and a b) := by
  intro F v po st hF hs
  simp only [List.length_append, List.length_singleton] at hF ⊢
  obtain ⟨k, po', hk, hpo, he⟩ := iha F ([.ampamp] ++ w ++ v) po st (by omega)
    (Stop.cons (k := 4) (by simp) rfl (by omega))
  obtain ⟨k, rfl⟩ := succ_of_pos (show 1 ≤ k by omega)
  have e1 : u ++ [Tok.ampamp] ++ w ++ v = u ++ ([.ampamp] ++ w ++ v) := by simp
  rw [e1, he, logicalAndLoop]
  have htok : (Info.tok ⟨[.ampamp] ++ w ++ v, po', (run cfg po a st).2⟩ : Option Tok)
      = some .ampamp := rfl
  have hn : ∀ st', (Info.next ⟨[.ampamp] ++ w ++ v, po', st'⟩ : Info E)
      = ⟨w ++ v, po', st'⟩ := fun _ => next_cons ((derives_ok hw).2 v)
  rw [if_neg (by rw [htok]; simp)]
  simp only [coerceNumber_eq, truth_eq, hn]
  have hB := fun p s => ihb k v p s (by simp only [rank]; omega) (by simp only [rank]; exact hs)
  simp only [parseNT] at hB
  simp only [hB]
  cases po with
  | true =>
    refine ⟨k, po' || true, by omega, Or.inr (Or.inl (by simp [run])), ?_⟩
    have hsk : Spec.skip cfg (.and a b) st = Spec.skip cfg b (Spec.skip cfg a st) :=
      skip_skip cfg a b st rfl
    simp [run, number_invalid, Spec.nonzero, hsk]
  | false =>
    have hra : run cfg false a st = Spec.eval cfg a st := by simp [run]
    have hro : run cfg false (.and a b) st = Spec.eval cfg (.and a b) st := by simp [run]
    rw [hro]
    rw [hra] at hpo ⊢
    simp only [Spec.eval]
    generalize Spec.eval cfg a st = ra at *
    obtain ⟨x, st1⟩ := ra
    simp only at hpo ⊢
    cases hx : Spec.number cfg x st1 with
    | mk x' st2 =>
      simp only
      cases hz : Spec.nonzero cfg x' with
      | none =>
        refine ⟨k, po' || true, by omega, Or.inr (Or.inl rfl), ?_⟩
        simp [run, number_invalid]
      | some z =>
        cases z with
        | false =>
          refine ⟨k, po' || true, by omega, Or.inr (Or.inr rfl), ?_⟩
          simp [run, number_invalid, ← ofBool_eq]
        | true =>
          have hpo' : po' = false := by
            rcases hpo with h | h | h
            · exact h
            · subst h; simp only [number_invalid, Prod.mk.injEq] at hx
              rw [← hx.1] at hz; simp [Spec.nonzero] at hz
            · subst h; simp only [number_long, Prod.mk.injEq] at hx
              rw [← hx.1] at hz; simp [Spec.nonzero, Long.zero] at hz
          subst hpo'
          refine ⟨k, false, by omega, Or.inl rfl, ?_⟩
          simp only [Option.getD_some, Bool.or_false, run, Bool.false_eq_true, if_false, Bool.not_true]
          cases Spec.number cfg (Spec.eval cfg b st2).1 (Spec.eval cfg b st2).2 with
          | mk y st3 =>
            simp only
            cases Spec.nonzero cfg y <;> simp [ofBool_eq]

theorem reached_cond {u v w : List Tok} {c a b : Expr} (hv : Derives .assignment v a)
    (hw : Derives .conditional w b)
    (ihc : Finished cfg .logicalOr u c) (iha : Finished cfg .assignment v a)
    (ihb : Reached cfg .conditional w b) :
    Reached cfg .conditional (u ++ [.question] ++ v ++ [.colon] ++ w) (.cond c a b) := by
  intro F r po st res hF hs
  simp only [List.length_append, List.length_singleton] at hF ⊢
  obtain ⟨k, rfl⟩ := succ_of_pos (show 1 ≤ F by omega)
  have e1 : u ++ [Tok.question] ++ v ++ [.colon] ++ w ++ r
      = u ++ (.question :: (v ++ (.colon :: (w ++ r)))) := by simp
  have hC := ihc k (.question :: (v ++ (.colon :: (w ++ r)))) po st (by simp only [rank]; omega)
    (Stop.cons (k := 1) (by simp) rfl (by simp only [rank]; omega))
  have hA := fun p s => iha k (.colon :: (w ++ r)) p s (by simp only [rank]; omega)
    (Stop.cons_none (by simp) rfl)
  have hB := fun p s res => ihb k r p s res (by omega) hs
  simp only [parseNT] at hC hA
  have hn1 : ∀ p st', (Info.next ⟨.question :: (v ++ (.colon :: (w ++ r))), p, st'⟩ : Info E)
      = ⟨v ++ (.colon :: (w ++ r)), p, st'⟩ := fun _ _ => next_cons ((derives_ok hv).2 _)
  have hn2 : ∀ p st', (Info.next ⟨.colon :: (w ++ r), p, st'⟩ : Info E)
      = ⟨w ++ r, p, st'⟩ := fun _ _ => next_cons ((derives_ok hw).2 _)
  rw [e1, conditionalLoop, hC]
  have ht1 : ∀ p (st' : St E), (Info.tok ⟨.question :: (v ++ (.colon :: (w ++ r))), p, st'⟩ : Option Tok)
      = some .question := fun _ _ => rfl
  have ht2 : ∀ p (st' : St E), (Info.tok ⟨.colon :: (w ++ r), p, st'⟩ : Option Tok) = some .colon :=
    fun _ _ => rfl
  simp only [ht1, ht2, coerceNumber_eq, truth_eq, hn1, hn2, hA, ne_eq, not_true_eq_false, if_false]
  cases po with
  | true =>
    have hr : run cfg true c st = (.invalid, Spec.skip cfg c st) := by simp [run]
    simp only [hr, number_invalid, Spec.nonzero, Bool.true_or, if_true]
    obtain ⟨po', he⟩ := hB true (run cfg true a (Spec.skip cfg c st)).2 res
    refine ⟨po', ?_⟩
    rw [he]
    simp only [if_true, run]
    congr 2
    simp only [Spec.skip, Spec.wellFormed]
    cases st.err <;> cases Spec.wellFormed cfg c <;> cases Spec.wellFormed cfg a <;> rfl
  | false =>
    have hr : run cfg false c st = Spec.eval cfg c st := by simp [run]
    have hro : run cfg false (.cond c a b) st = Spec.eval cfg (.cond c a b) st := by simp [run]
    rw [hro, hr]
    simp only [Spec.eval, Bool.false_eq_true, if_false, Bool.false_or]
    generalize Spec.eval cfg c st = rc
    obtain ⟨x, st1⟩ := rc
    simp only
    cases hx : Spec.number cfg x st1 with
    | mk x' st2 =>
      simp only
      cases hz : Spec.nonzero cfg x' with
      | none =>
        simp only [Option.isSome_none, Bool.not_false, Bool.true_or, if_true]
        obtain ⟨po', he⟩ := hB true (run cfg true a st2).2 x'
        refine ⟨po', ?_⟩
        rw [he]
        have hxi : x' = .invalid := by
          cases x' with
          | invalid => rfl
          | var y => exact (number_not_var cfg hx).elim
          | _ => simp [Spec.nonzero] at hz
        simp [run, hxi]
      | some z =>
        cases z with
        | true =>
          simp only [Option.isSome_some, Bool.not_true, Bool.false_or, Option.getD_some,
            Bool.false_eq_true, if_false]
          obtain ⟨po', he⟩ := hB true (run cfg false a st2).2 (run cfg false a st2).1
          refine ⟨po', ?_⟩
          rw [he]
          simp [run]
        | false =>
          simp only [Option.isSome_some, Bool.not_true, Bool.false_or, Option.getD_some,
            Bool.not_false, if_true]
          obtain ⟨po', he⟩ := hB false (run cfg true a st2).2 x'
          refine ⟨po', ?_⟩
          rw [he]
          simp [run]

theorem head_of_primary {u : List Tok} {e : Expr} {nt : NT} (h : Derives nt u e)
    (hn : nt = .primary ∨ nt = .postfix) :
    ∃ t, (∀ v, (u ++ v).head? = some t) ∧ (t = .lparen ∨ (∃ s, t = .num s) ∨ ∃ s, t = .ident s) := by
  induction h with
  | num s => exact ⟨.num s, by simp, Or.inr (Or.inl ⟨s, rfl⟩)⟩
  | ident s => exact ⟨.ident s, by simp, Or.inr (Or.inr ⟨s, rfl⟩)⟩
  | paren => exact ⟨.lparen, by simp, Or.inl rfl⟩
  | inc _ ih | dec _ ih =>
    obtain ⟨t, h1, h2⟩ := ih (Or.inr rfl)
    exact ⟨t, fun v => by rw [List.append_assoc]; exact h1 _, h2⟩
  | pre => simp at hn
  | binary hb => cases hb <;> simp at hn
  | cond => simp at hn
  | assign => simp at hn
  | chain hc _ ih =>
    rcases hn with rfl | rfl
    · cases hc
    · cases hc; exact ih (Or.inl rfl)

theorem run_lit (po : Bool) (s : List Char) (st : St E) :
    run cfg po (.lit s) st
      = ((if po then .invalid else (parseAsNumber cfg s st).1), (parseAsNumber cfg s st : Value D × St E).2) := by
  rw [parseAsNumber_eq]
  cases po with
  | true =>
    simp only [run, Spec.skip, Spec.wellFormed, if_true]
    cases h : Spec.literal cfg s <;> simp [Spec.bad]
  | false =>
    simp only [run, Bool.false_eq_true, if_false, Spec.eval]
    cases Spec.literal cfg s <;> rfl

theorem run_var (po : Bool) (s : List Char) (st : St E) :
    run cfg po (.var s) st = ((if po then .invalid else .var s), st) := by
  cases po with
  | true => simp [run, Spec.skip, Spec.wellFormed]
  | false => simp [run, Spec.eval]

theorem run_po_value (e : Expr) (st : St E) : (run cfg true e st).1 = .invalid := by simp [run]

theorem incDec_invalid_skip (inc pre : Bool) (e : Expr) (st : St E) (f : Expr)
    (hf : Spec.wellFormed cfg f = (Spec.wellFormed cfg e && !cfg.posix)) :
    run cfg true f st = incDec cfg inc pre (run cfg true e st).1 (run cfg true e st).2 := by
  simp only [run, if_true, Spec.skip, hf, incDec]
  cases cfg.posix <;> simp [St.fail]

theorem run_post (inc po : Bool) (e : Expr) (st : St E) :
    run cfg po (.post inc e) st = incDec cfg inc false (run cfg po e st).1 (run cfg po e st).2 := by
  cases po with
  | true => exact incDec_invalid_skip cfg inc false e st _ rfl
  | false => simp only [run, Bool.false_eq_true, if_false, Spec.eval, incDec_eq]

theorem run_pre (inc po : Bool) (e : Expr) (st : St E) :
    run cfg po (.pre inc e) st = incDec cfg inc true (run cfg po e st).1 (run cfg po e st).2 := by
  cases po with
  | true => exact incDec_invalid_skip cfg inc true e st _ rfl
  | false => simp only [run, Bool.false_eq_true, if_false, Spec.eval, incDec_eq]

theorem doUnary_invalid (op : UnOp) (st : St E) :
    doUnary cfg op (.invalid : Value D) st = (.invalid, st) := by cases op <;> rfl

theorem run_pos (po : Bool) (e : Expr) (st : St E) :
    run cfg po (.pos e) st = doUnary cfg .plus (run cfg po e st).1 (run cfg po e st).2 := by
  cases po with
  | true => simp [run, doUnary_invalid, Spec.skip, Spec.wellFormed]
  | false => simp only [run, Bool.false_eq_true, if_false, Spec.eval, doUnary, coerceNumber_eq]

theorem run_neg (po : Bool) (e : Expr) (st : St E) :
    run cfg po (.neg e) st = doUnary cfg .minus (run cfg po e st).1 (run cfg po e st).2 := by
  cases po with
  | true => simp [run, doUnary_invalid, Spec.skip, Spec.wellFormed]
  | false =>
    simp only [run, Bool.false_eq_true, if_false, Spec.eval, doUnary, coerceNumber_eq]
    generalize Spec.number cfg _ _ = r
    obtain ⟨r, st⟩ := r
    cases r with
    | long n => simp only [(C08_unary n).1, ofOutcome_eq]
    | _ => rfl

theorem run_compl (po : Bool) (e : Expr) (st : St E) :
    run cfg po (.compl e) st = doUnary cfg .tilde (run cfg po e st).1 (run cfg po e st).2 := by
  cases po with
  | true => simp [run, doUnary_invalid, Spec.skip, Spec.wellFormed]
  | false =>
    simp only [run, Bool.false_eq_true, if_false, Spec.eval, doUnary, coerceInteger_eq]
    generalize Spec.integer cfg _ _ = r
    obtain ⟨r, st⟩ := r
    cases r with
    | long n =>
      have h1 := n.lo; have h2 := n.hi
      simp only [exact_complement]
      rw [exact_pos]; rfl
    | _ => rfl

theorem run_not (po : Bool) (e : Expr) (st : St E) :
    run cfg po (.not e) st = doUnary cfg .excl (run cfg po e st).1 (run cfg po e st).2 := by
  cases po with
  | true => simp [run, doUnary_invalid, Spec.skip, Spec.wellFormed]
  | false =>
    simp only [run, Bool.false_eq_true, if_false, Spec.eval, doUnary, coerceNumber_eq]
    cases hr : Spec.number cfg (Spec.eval cfg e st).1 (Spec.eval cfg e st).2 with
    | mk r st' =>
    cases r with
    | long n =>
      simp only [Spec.nonzero, ofBool_eq]
      congr 2
      rw [Bool.eq_iff_iff]; simp
    | dbl d => simp only [Spec.nonzero, ofBool_eq]
    | invalid => rfl
    | var x => exact (number_not_var cfg hr).elim

theorem run_prefix {t : Tok} {f : Expr → Expr} (hp : Spec.Prefix t f) {F : Nat} {w : List Tok}
    (hw : w.head? ≠ some .invalid) (po : Bool) (e : Expr) (st : St E) (r : List Tok)
    (h : parsePrefix cfg F ⟨w, po, st⟩ = ((run cfg po e st).1, ⟨r, po, (run cfg po e st).2⟩)) :
    parsePrefix cfg (F + 1) ⟨t :: w, po, st⟩
      = ((run cfg po (f e) st).1, ⟨r, po, (run cfg po (f e) st).2⟩) := by
  rw [parsePrefix]
  cases hp <;> simp only [Info.tok, List.head?_cons, next_cons hw, h]
  · rw [run_pos]
  · rw [run_neg]
  · rw [run_compl]
  · rw [run_not]
  · rw [run_pre]
  · rw [run_pre]

theorem reached_post {t : Tok} {inc : Bool} {u : List Tok} {e : Expr}
    (ht : (t = .plusplus ∧ inc = true) ∨ (t = .minusminus ∧ inc = false))
    (ih : Reached cfg .postfix u e) : Reached cfg .postfix (u ++ [t]) (.post inc e) := by
  intro F v po st hF hs
  simp only [List.length_append, List.length_singleton] at hF ⊢
  have e1 : u ++ [t] ++ v = u ++ (t :: v) := by simp
  have hti : t ≠ .invalid := by rcases ht with ⟨rfl, _⟩ | ⟨rfl, _⟩ <;> simp
  obtain ⟨k, hk, he⟩ := ih F (t :: v) po st (by omega) (by simpa using hti)
  obtain ⟨k, rfl⟩ := succ_of_pos (show 1 ≤ k by omega)
  refine ⟨k, by omega, ?_⟩
  rw [e1, he, postfixLoop, run_post]
  rcases ht with ⟨rfl, rfl⟩ | ⟨rfl, rfl⟩ <;>
    simp only [Info.tok, List.head?_cons, next_cons hs]

theorem finished_assign {t : Tok} {f : Expr → Expr → Expr} {u v : List Tok} {x e : Expr}
    (ha : Spec.AssignOp t f) (hv : Derives .assignment v e)
    (ihx : Finished cfg .conditional u x) (ihe : Finished cfg .assignment v e) :
    Finished cfg .assignment (u ++ [t] ++ v) (f x e) := by
  intro F r po st hF hs
  simp only [List.length_append, List.length_singleton] at hF ⊢
  simp only [rank] at hF hs
  obtain ⟨k, rfl⟩ := succ_of_pos (show 1 ≤ F by omega)
  have e1 : u ++ [t] ++ v ++ r = u ++ (t :: (v ++ r)) := by simp
  have htc : cont t = some 0 := by cases ha <;> rfl
  have hti : t ≠ .invalid := by cases ha <;> simp
  have hX := ihx k (t :: (v ++ r)) po st (by simp only [rank]; omega)
    (Stop.cons hti htc (by simp only [rank]; omega))
  have hV := fun s => ihe k r po s (by simp only [rank]; omega) hs
  have hn : ∀ st', (Info.next ⟨t :: (v ++ r), po, st'⟩ : Info E) = ⟨v ++ r, po, st'⟩ :=
    fun _ => next_cons ((derives_ok hv).2 _)
  simp only [parseNT] at hX hV ⊢
  rw [e1, parseAssignment, hX]
  have hwf : Spec.wellFormed cfg (f x e) = (Spec.wellFormed cfg x && Spec.wellFormed cfg e) := by
    cases ha <;> rfl
  cases po with
  | true =>
    have hr : run cfg true (f x e) st = (.invalid, Spec.skip cfg e (Spec.skip cfg x st)) := by
      simp only [run, if_true]; rw [skip_skip cfg x e st hwf]
    rw [hr]
    have h1 : run cfg true x st = (.invalid, Spec.skip cfg x st) := by simp [run]
    cases ha <;> simp only [Info.tok, List.head?_cons, hn, hV, h1] <;> simp [run]
  | false =>
    have h1 : run cfg false (f x e) st = Spec.eval cfg (f x e) st := by simp [run]
    have h2 : run cfg false x st = Spec.eval cfg x st := by simp [run]
    have h3 : ∀ s, run cfg false e s = Spec.eval cfg e s := fun s => by simp [run]
    rw [h1]
    cases ha <;> simp only [Info.tok, List.head?_cons, hn, hV, h2, h3, Spec.eval, Spec.assignTo,
      arithValue_eq, bitsValue_eq, doAssignment_eq] <;>
      cases (Spec.eval cfg x st).1 <;> rfl

theorem chain_rank {n m : NT} (h : Spec.Chain n m) : rank n < rank m := by cases h <;> decide

theorem reached_of_derives {nt : NT} {u : List Tok} {e : Expr} (h : Derives nt u e) :
    Reached cfg nt u e := by
  induction h with
  | num s =>
    intro F v po st hF hs
    obtain ⟨k, rfl⟩ := succ_of_pos (show 1 ≤ F by simp [rank] at hF; omega)
    simp only [parseNT, List.cons_append, List.nil_append]
    rw [parsePrimary, run_lit]
    simp only [Info.tok, List.head?_cons, next_cons hs.valid]
  | ident s =>
    intro F v po st hF hs
    obtain ⟨k, rfl⟩ := succ_of_pos (show 1 ≤ F by simp [rank] at hF; omega)
    simp only [parseNT, List.cons_append, List.nil_append]
    rw [parsePrimary, run_var]
    simp only [Info.tok, List.head?_cons, next_cons hs.valid]
  | @paren u e hd ih =>
    intro F v po st hF hs
    simp only [List.length_append, List.length_singleton, rank] at hF
    obtain ⟨k, rfl⟩ := succ_of_pos (show 1 ≤ F by omega)
    have e1 : [Tok.lparen] ++ u ++ [.rparen] ++ v = .lparen :: (u ++ (.rparen :: v)) := by simp
    have hU := finished_of_reached cfg ih k (.rparen :: v) po st (by simp only [rank]; omega)
      (Stop.cons_none (by simp) rfl)
    simp only [parseNT] at hU ⊢
    rw [e1, parsePrimary]
    simp only [Info.tok, List.head?_cons, next_cons ((derives_ok hd).2 _), hU, if_true,
      next_cons hs.valid]
    cases po <;> simp [run]
  | inc hd ih => exact reached_post cfg (Or.inl ⟨rfl, rfl⟩) ih
  | dec hd ih => exact reached_post cfg (Or.inr ⟨rfl, rfl⟩) ih
  | pre hp hd ih =>
    intro F v po st hF hs
    simp only [List.length_append, List.length_singleton, rank] at hF
    obtain ⟨k, rfl⟩ := succ_of_pos (show 1 ≤ F by omega)
    have hU := ih k v po st (by simp only [rank]; omega) hs
    simp only [parseNT] at hU ⊢
    exact run_prefix cfg hp ((derives_ok hd).2 _) po _ st v hU
  | @binary n m t f u v a b hb hd1 hd2 ih1 ih2 =>
    cases hl : levelOf n with
    | some l => exact reached_binary_level cfg hb hl hd2 ih1 (finished_of_reached cfg ih2)
    | none =>
      cases hb <;> simp only [levelOf, reduceCtorEq] at hl
      · exact reached_or cfg hd2 ih1 (finished_of_reached cfg ih2)
      · exact reached_and cfg hd2 ih1 (finished_of_reached cfg ih2)
  | cond hd1 hd2 hd3 ih1 ih2 ih3 =>
    exact reached_cond cfg hd2 hd3 (finished_of_reached cfg ih1) (finished_of_reached cfg ih2) ih3
  | assign ha hd1 hd2 ih1 ih2 =>
    exact finished_assign cfg ha hd2 (finished_of_reached cfg ih1) (finished_of_reached cfg ih2)
  | @chain n m u e hc hd ih =>
    have ih := finished_of_reached cfg ih
    have hlen := (derives_ok hd).1
    cases hc with
    | assignment =>
      intro F v po st hF hs
      simp only [rank] at hF hs
      obtain ⟨k, rfl⟩ := succ_of_pos (show 1 ≤ F by omega)
      have hU := ih k v po st (by simp only [rank]; omega) (hs.mono (by omega))
      simp only [parseNT] at hU ⊢
      rw [parseAssignment, hU]
      have := fun o => hs.head (t := .assign o) (k := 0) rfl (by omega)
      simp only [Info.tok]
    | conditional =>
      intro F v po st res hF hs
      obtain ⟨k, rfl⟩ := succ_of_pos (show 1 ≤ F by omega)
      have hU := ih k v po st (by simp only [rank]; omega) (hs.mono (by simp only [rank]; omega))
      simp only [parseNT] at hU ⊢
      refine ⟨po, ?_⟩
      rw [conditionalLoop, hU]
      simp only
      rw [if_pos]
      exact hs.head (t := .question) (k := 1) rfl (by omega)
    | logicalOr =>
      intro F v po st hF hs
      have hU := ih F v po st (by simp only [rank]; omega) (hs.mono (by simp only [rank]; omega))
      simp only [parseNT] at hU ⊢
      exact ⟨F, po, by omega, Or.inl rfl, by rw [lorBody, hU]⟩
    | logicalAnd =>
      intro F v po st hF hs
      have hU := ih F v po st (by simp only [rank]; omega) (hs.mono (by simp only [rank]; omega))
      simp only [parseNT] at hU ⊢
      exact ⟨F, po, by omega, Or.inl rfl, by rw [landBody, hU]⟩
    | inclusiveOr | exclusiveOr | and | equality | relational | shift | additive | multiplicative =>
      rw [reached_level cfg rfl]
      intro F v po st hF hs
      simp only [rank] at hF
      obtain ⟨k, rfl⟩ := succ_of_pos (show 1 ≤ F by omega)
      have hU := ih k v po st (by simp only [rank]; omega) hs
      simp only [parseNT] at hU ⊢
      exact ⟨k, by omega, by rw [parseBinary]; simp only [Level.next, hU]⟩
    | «prefix» =>
      intro F v po st hF hs
      simp only [rank] at hF
      obtain ⟨k, rfl⟩ := succ_of_pos (show 1 ≤ F by omega)
      have hU := ih k v po st (by simp only [rank]; omega) (hs.mono (by decide))
      simp only [parseNT] at hU ⊢
      rw [parsePrefix]
      obtain ⟨t, ht, hcases⟩ := head_of_primary hd (Or.inr rfl)
      simp only [Info.tok, ht]
      rcases hcases with rfl | ⟨s, rfl⟩ | ⟨s, rfl⟩ <;> simp only [hU]
    | «postfix» =>
      intro F v po st hF hs
      obtain ⟨k, rfl⟩ := succ_of_pos (show 1 ≤ F by omega)
      have hs' : Stop 15 v := by
        intro t ht
        refine ⟨fun h => hs (by rw [ht, h]), fun k hk => ?_⟩
        unfold cont at hk
        split at hk <;> simp only [Option.some.injEq, reduceCtorEq] at hk <;> omega
      have hU := ih k v po st (by simp only [rank]; omega) hs'
      simp only [parseNT] at hU ⊢
      exact ⟨k, by omega, by rw [parsePostfix]; simp only [hU]⟩

end

end Yash.Arith
