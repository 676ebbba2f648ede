import Verif.Alias.BuiltinSpec
import Verif.Script.Lemmas
/-! # Property C84: the `alias` and `unalias` built-ins -/
set_option autoImplicit false

namespace Yash.Alias

open Spec
open Yash.Expand (Locale quoteAsWord lineOf Ordinary)
open Yash.Parser.Spec (LocaleOk keywords)
open Yash.Restore (Literal NameWord literal_chars literal_quote)

/-! ## Reading the arguments -/

theorem bi_operands {cfg : Xgetopt.Config} :
    ∀ (ops : List Str), (∀ o ∈ ops, o.head? = some '-' → o = ['-']) → Xgetopt.Spec.parse cfg none ops = ⟨[], [], ops, .done⟩
  | [], _ => by rw [Xgetopt.Spec.parse]
  | o :: ops, h => by
    have hk : Xgetopt.Spec.kind cfg o = .operand := by
      by_cases hh : o.head? = some '-'
      · rw [h o (by simp) hh]; rfl
      · exact Restore.kind_operand cfg hh
    rw [Xgetopt.Spec.parse]
    simp only [hk, bi_operands ops (fun x hx => h x (by simp [hx]))]
    split <;> rfl

theorem bi_sep (cfg : Xgetopt.Config) (rest : List Str) : Xgetopt.Spec.parse cfg none ("--".toList :: rest) = ⟨[], ["--".toList], rest, .done⟩ := by
  rw [Xgetopt.Spec.parse]
  rfl

theorem bi_flags {C : Config} {g p : Bool} {opts : List Str} (h : Options g p opts) (hp : C.posix = false ∨ opts = []) (rest ops used : List Str)
    (hr : Xgetopt.Spec.parse (C.getopt aliasOptions) none rest = ⟨[], used, ops, .done⟩) :
    ∃ rs used', Xgetopt.Spec.parse (C.getopt aliasOptions) none (opts ++ rest) = ⟨rs, used', ops, .done⟩ ∧ (rs.any fun o => o.1.short == '-') = false ∧
      (rs.any fun o => o.1.short == 'g') = g ∧ (rs.any fun o => o.1.short == 'p') = p := by
  induction h with
  | nil => exact ⟨_, _, hr, rfl, rfl, rfl⟩
  | @global g p opt opts ho _ ih =>
    have hp : C.posix = false := by simpa using hp
    have hC : C.getopt aliasOptions = ⟨aliasOptions, false, false, false, C.isDigit⟩ := by rw [Config.getopt, hp]
    obtain ⟨rs, used', h1, h2, h3, h4⟩ := ih (.inl hp)
    refine ⟨(⟨'g', some "global".toList, .none, false⟩, none) :: rs, opt :: used', ?_, by simpa using h2, by simp, by simpa using h4⟩
    rw [List.cons_append, Xgetopt.Spec.parse]
    rcases ho with rfl | rfl
    · have k1 : Xgetopt.Spec.kind (C.getopt aliasOptions) "-g".toList = .short ['g'] := by rw [hC]; rfl
      have k2 : Xgetopt.Spec.cluster (C.getopt aliasOptions) none ['g'] = .complete [(⟨'g', some "global".toList, .none, false⟩, none)] none := by rw [hC]; rfl
      simp only [k1, k2, h1, List.cons_append, List.nil_append]
    · have k1 : Xgetopt.Spec.kind (C.getopt aliasOptions) "--global".toList = .long "global".toList [] := by rw [hC]; rfl
      have k2 : Xgetopt.Spec.long (C.getopt aliasOptions) none "global".toList [] = .complete [(⟨'g', some "global".toList, .none, false⟩, none)] none := by rw [hC]; rfl
      simp only [k1, k2, h1, List.cons_append, List.nil_append]
  | @pre g p opt opts ho _ ih =>
    have hp : C.posix = false := by simpa using hp
    have hC : C.getopt aliasOptions = ⟨aliasOptions, false, false, false, C.isDigit⟩ := by rw [Config.getopt, hp]
    obtain ⟨rs, used', h1, h2, h3, h4⟩ := ih (.inl hp)
    refine ⟨(⟨'p', some "prefix".toList, .none, false⟩, none) :: rs, opt :: used', ?_, by simpa using h2, by simpa using h3, by simp⟩
    rw [List.cons_append, Xgetopt.Spec.parse]
    rcases ho with rfl | rfl
    · have k1 : Xgetopt.Spec.kind (C.getopt aliasOptions) "-p".toList = .short ['p'] := by rw [hC]; rfl
      have k2 : Xgetopt.Spec.cluster (C.getopt aliasOptions) none ['p'] = .complete [(⟨'p', some "prefix".toList, .none, false⟩, none)] none := by rw [hC]; rfl
      simp only [k1, k2, h1, List.cons_append, List.nil_append]
    · have k1 : Xgetopt.Spec.kind (C.getopt aliasOptions) "--prefix".toList = .long "prefix".toList [] := by rw [hC]; rfl
      have k2 : Xgetopt.Spec.long (C.getopt aliasOptions) none "prefix".toList [] = .complete [(⟨'p', some "prefix".toList, .none, false⟩, none)] none := by rw [hC]; rfl
      simp only [k1, k2, h1, List.cons_append, List.nil_append]

/-- What `alias` does with its operands. -/
theorem bi_alias {C : Config} {g p : Bool} {opts args ops : List Str} (h : Options g p opts) (hp : C.posix = false ∨ opts = []) (hu : Usage opts args ops)
    (tbl : List Alias) : aliasBuiltin C args tbl =
      if ops.isEmpty then some (tbl, (C.sort tbl).flatMap fun a => printAlias C.locale a.name a p, .success)
      else some ((aliasLoop C g p ops tbl).1, (aliasLoop C g p ops tbl).2.1, if (aliasLoop C g p ops tbl).2.2 then .success else .failure) := by
  obtain ⟨rs, used, h1, h2, h3, h4⟩ : ∃ rs used', Xgetopt.Spec.parse (C.getopt aliasOptions) none args = ⟨rs, used', ops, .done⟩ ∧ (rs.any fun o => o.1.short == '-') = false ∧
      (rs.any fun o => o.1.short == 'g') = g ∧ (rs.any fun o => o.1.short == 'p') = p := by
    cases hu with
    | plain ho => exact bi_flags h hp _ _ _ (bi_operands _ ho)
    | separated => exact bi_flags h hp _ _ _ (bi_sep _ _)
  unfold aliasBuiltin
  simp only [h1, h2, h3, h4, Bool.false_eq_true, if_false]

/-! ## The table -/

theorem meaning_remove (tbl : List Alias) (n m : Str) : meaning (removeAlias tbl n) m = if m = n then none else meaning tbl m := by
  unfold meaning lookup removeAlias
  rw [List.find?_filter]
  split
  · rename_i h
    subst h
    rw [List.find?_eq_none.2]
    · rfl
    · intro a _; simp
  · rename_i h
    congr 2
    funext a
    by_cases hm : a.name = m
    · simp [hm, h]
    · simp [hm]

theorem meaning_define (tbl : List Alias) (n v : Str) (g : Bool) (m : Str) : meaning (defineAlias tbl n v g) m = if m = n then some (v, g) else meaning tbl m := by
  have := meaning_remove tbl n m
  unfold defineAlias
  unfold meaning lookup at *
  rw [List.find?_cons]
  by_cases h : n = m
  · subst h; simp
  · have h' : m ≠ n := fun e => h e.symm
    simp only [beq_eq_false_iff_ne.2 h, if_neg h'] at this ⊢
    exact this

theorem nameChar_iff (L : Locale) (c : Char) : isAliasNameChar L c = true ↔ (L.blank c = false ∧ c ≠ ' ' ∧ c ≠ '\t' ∧ c ≠ '\n' ∧ c ≠ '=' ∧ c ≠ '$' ∧ c ≠ '<' ∧ c ≠ '>' ∧
    c ≠ '\\' ∧ c ≠ '\'' ∧ c ≠ '"' ∧ c ≠ '`' ∧ c ≠ ';' ∧ c ≠ '&' ∧ c ≠ '|' ∧ c ≠ '(' ∧ c ≠ ')' ∧ c ≠ '#') := by
  simp [isAliasNameChar]
  grind

theorem valid_iff (L : Locale) (n : Str) : ValidName L n ↔ n ≠ [] ∧ ∀ c ∈ n, isAliasNameChar L c = true := by
  simp only [ValidName, nameChar_iff]

theorem takeWhile_stop {p : Char → Bool} : ∀ {a : Str} {c : Char} {b : Str}, (∀ x ∈ a, p x = true) → p c = false →
    (a ++ c :: b).takeWhile p = a ∧ (a ++ c :: b).dropWhile p = c :: b
  | [], c, b, _, hc => by simp [hc]
  | x :: a, c, b, h, hc => by
    have := takeWhile_stop (a := a) (b := b) (fun y hy => h y (by simp [hy])) hc
    simp [h x (by simp), this]

theorem takeWhile_full {p : Char → Bool} : ∀ {a : Str}, (∀ x ∈ a, p x = true) → a.takeWhile p = a ∧ a.dropWhile p = []
  | [], _ => by simp
  | x :: a, h => by
    have := takeWhile_full (a := a) (fun y hy => h y (by simp [hy]))
    simp [h x (by simp), this]

theorem eq_notName (L : Locale) : isAliasNameChar L '=' = false := by
  simp [isAliasNameChar]

theorem defines_split {L : Locale} {arg n v : Str} (h : Defines L arg n v) :
    arg.takeWhile (isAliasNameChar L) = n ∧ arg.dropWhile (isAliasNameChar L) = '=' :: v := by
  obtain ⟨h1, rfl⟩ := h
  exact takeWhile_stop ((valid_iff L n).1 h1).2 (eq_notName L)

theorem defines_unique {L : Locale} {arg n v n' v' : Str} (h : Defines L arg n v) (h' : Defines L arg n' v') : n = n' ∧ v = v' := by
  have h1 := defines_split h
  have h2 := defines_split h'
  rw [h1.1, h1.2] at h2
  exact ⟨h2.1, by simpa using h2.2⟩

theorem operand_defines {C : Config} {arg n v : Str} (h : Defines C.locale arg n v) (g p : Bool) (tbl : List Alias) :
    aliasOperand C g p arg tbl = (defineAlias tbl n v g, [], true) := by
  obtain ⟨h1, h2⟩ := defines_split h
  have : n.isEmpty = false := by
    have := h.1.1
    cases n <;> simp_all
  unfold aliasOperand
  simp only [h1, h2, this, Bool.false_eq_true, if_false]

theorem valid_notDefines {L : Locale} {arg : Str} (h : ValidName L arg) (n v : Str) : ¬Defines L arg n v := by
  rintro ⟨-, rfl⟩
  have := ((valid_iff L _).1 h).2 '=' (by simp)
  rw [eq_notName] at this
  cases this

theorem operand_prints {C : Config} {arg : Str} (h : ValidName C.locale arg) (g p : Bool) (tbl : List Alias) :
    aliasOperand C g p arg tbl = match lookup tbl arg with
      | some a => (tbl, printAlias C.locale arg a p, true)
      | none => (tbl, [], false) := by
  obtain ⟨h1, h2⟩ := takeWhile_full ((valid_iff _ _).1 h).2
  have : arg.isEmpty = false := by
    have := h.1
    cases arg <;> simp_all
  unfold aliasOperand
  simp only [h1, h2, this, Bool.false_eq_true, if_false]
  cases lookup tbl arg <;> rfl

theorem operand_other {C : Config} {arg : Str} (h : ¬ValidName C.locale arg) (h' : ∀ n v, ¬Defines C.locale arg n v) (g p : Bool) (tbl : List Alias) :
    aliasOperand C g p arg tbl = (tbl, [], false) := by
  have hs := List.takeWhile_append_dropWhile (p := isAliasNameChar C.locale) (l := arg)
  have hall : ∀ c ∈ arg.takeWhile (isAliasNameChar C.locale), isAliasNameChar C.locale c = true := by
    intro c hc
    exact List.all_eq_true.1 List.all_takeWhile c hc
  unfold aliasOperand
  simp only
  split
  · rename_i v hv
    split
    · rfl
    · rename_i hn
      rw [hv] at hs
      exact absurd ⟨(valid_iff _ _).2 ⟨by simpa using hn, hall⟩, hs.symm⟩ (h' _ _)
  · rename_i hv
    split
    · rfl
    · rename_i hn
      rw [hv, List.append_nil] at hs
      rw [hs] at hn hall
      exact absurd ((valid_iff _ _).2 ⟨by simpa using hn, hall⟩) h
  · rfl

/-- One operand. -/
theorem operand_cases (C : Config) (g p : Bool) (arg : Str) (tbl : List Alias) :
    (∃ n v, Defines C.locale arg n v ∧ aliasOperand C g p arg tbl = (defineAlias tbl n v g, [], true)) ∨
    ((∀ n v, ¬Defines C.locale arg n v) ∧ (aliasOperand C g p arg tbl).1 = tbl ∧
      ((aliasOperand C g p arg tbl).2.2 = true ↔ ValidName C.locale arg ∧ meaning tbl arg ≠ none)) := by
  by_cases h : ∃ n v, Defines C.locale arg n v
  · obtain ⟨n, v, h⟩ := h
    exact .inl ⟨n, v, h, operand_defines h g p tbl⟩
  · have h' : ∀ n v, ¬Defines C.locale arg n v := fun n v hd => h ⟨n, v, hd⟩
    refine .inr ⟨h', ?_⟩
    by_cases hv : ValidName C.locale arg
    · rw [operand_prints hv]
      unfold meaning
      cases lookup tbl arg <;> simp [hv]
    · rw [operand_other hv h']
      simp [hv]

/-! ## Defining aliases -/

theorem loop_keep {C : Config} {g p : Bool} {name : Str} : ∀ (ops : List Str) (tbl : List Alias), (∀ o ∈ ops, ∀ v, ¬Defines C.locale o name v) →
    meaning (aliasLoop C g p ops tbl).1 name = meaning tbl name := by
  intro ops
  induction ops with
  | nil => intro tbl _; rfl
  | cons o ops ih =>
    intro tbl h
    show meaning (aliasLoop C g p ops (aliasOperand C g p o tbl).1).1 name = _
    rw [ih _ fun x hx => h x (by simp [hx])]
    rcases operand_cases C g p o tbl with ⟨n, v, h1, h2⟩ | ⟨-, h2, -⟩
    · rw [h2, meaning_define, if_neg]
      rintro rfl
      exact h o (by simp) v h1
    · rw [h2]

theorem loop_last {C : Config} {g p : Bool} {name value : Str} : ∀ (ops : List Str) (tbl : List Alias) (before after : List Str), ops = before ++ (name ++ '=' :: value) :: after →
    ValidName C.locale name → (∀ o ∈ after, ∀ v, ¬Defines C.locale o name v) → meaning (aliasLoop C g p ops tbl).1 name = some (value, g) := by
  intro ops tbl before
  induction before generalizing ops tbl with
  | nil =>
    intro after h hv ha
    subst h
    show meaning (aliasLoop C g p after (aliasOperand C g p _ tbl).1).1 name = _
    rw [loop_keep _ _ ha, operand_defines ⟨hv, rfl⟩, meaning_define, if_pos rfl]
  | cons b before ih =>
    intro after h hv ha
    subst h
    exact ih _ (aliasOperand C g p b tbl).1 after rfl hv ha

theorem loop_status {C : Config} {g p : Bool} : ∀ (ops : List Str) (tbl : List Alias), (aliasLoop C g p ops tbl).2.2 = true ↔
    ∀ before o after, ops = before ++ o :: after → (∃ n v, Defines C.locale o n v) ∨
      (ValidName C.locale o ∧ (meaning tbl o ≠ none ∨ ∃ b ∈ before, ∃ v, Defines C.locale b o v)) := by
  intro ops
  induction ops with
  | nil => intro tbl; simp [aliasLoop]
  | cons a ops ih =>
    intro tbl
    have hstep : (aliasLoop C g p (a :: ops) tbl).2.2 = ((aliasOperand C g p a tbl).2.2 && (aliasLoop C g p ops (aliasOperand C g p a tbl).1).2.2) := rfl
    rw [hstep, Bool.and_eq_true, ih]
    have hcase := operand_cases C g p a tbl
    constructor
    · rintro ⟨h1, h2⟩ before o after heq
      cases before with
      | nil =>
        simp only [List.nil_append, List.cons.injEq] at heq
        obtain ⟨rfl, rfl⟩ := heq
        rcases hcase with ⟨n, v, h3, -⟩ | ⟨-, -, h3⟩
        · exact .inl ⟨n, v, h3⟩
        · exact .inr ⟨(h3.1 h1).1, .inl (h3.1 h1).2⟩
      | cons b before =>
        simp only [List.cons_append, List.cons.injEq] at heq
        obtain ⟨rfl, heq⟩ := heq
        rcases h2 before o after heq with h | ⟨h3, h4⟩
        · exact .inl h
        refine .inr ⟨h3, ?_⟩
        rcases h4 with h4 | ⟨b, hb, hv⟩
        · rcases hcase with ⟨n, v, h5, h6⟩ | ⟨-, h6, -⟩
          · rw [h6, meaning_define] at h4
            split at h4
            · rename_i he
              subst he
              exact .inr ⟨_, by simp, v, h5⟩
            · exact .inl h4
          · rw [h6] at h4
            exact .inl h4
        · exact .inr ⟨b, by simp [hb], hv⟩
    · intro h
      constructor
      · rcases hcase with ⟨n, v, h3, h4⟩ | ⟨h2, -, h3⟩
        · rw [h4]
        · rw [h3]
          rcases h [] a ops rfl with ⟨n, v, h4⟩ | ⟨h4, h5⟩
          · exact absurd h4 (h2 n v)
          · exact ⟨h4, by simpa using h5⟩
      · intro before o after heq
        rcases h (a :: before) o after (by rw [heq]; rfl) with h | ⟨h3, h4⟩
        · exact .inl h
        refine .inr ⟨h3, ?_⟩
        rcases hcase with ⟨n, v, h5, h6⟩ | ⟨h5, h6, -⟩
        · rw [h6, meaning_define]
          rcases h4 with h4 | ⟨b, hb, w, hw⟩
          · left
            split
            · simp
            · exact h4
          · rcases List.mem_cons.1 hb with rfl | hb
            · left
              rw [if_pos (defines_unique hw h5).1]
              simp
            · exact .inr ⟨b, hb, w, hw⟩
        · rw [h6]
          rcases h4 with h4 | ⟨b, hb, w, hw⟩
          · exact .inl h4
          · rcases List.mem_cons.1 hb with rfl | hb
            · exact absurd hw (h5 _ _)
            · exact .inr ⟨b, hb, w, hw⟩

/-- `alias` with operands: the last operand that defines a name counts, aliases that no operand defines stay as they are, and the exit status is 0 if and only
if every operand is a definition or the name of an alias. -/
theorem alias_defines {C : Config} {g p : Bool} {opts args ops : List Str} (hf : Options g p opts) (hp : C.posix = false ∨ opts = []) (hu : Usage opts args ops)
    (ho : ops ≠ []) (tbl : List Alias) :
    ∃ tbl' out st, aliasBuiltin C args tbl = some (tbl', out, st) ∧
      (∀ before name value after, ops = before ++ (name ++ '=' :: value) :: after → ValidName C.locale name → (∀ o ∈ after, ∀ v, ¬Defines C.locale o name v) →
        meaning tbl' name = some (value, g)) ∧
      (∀ name, (∀ o ∈ ops, ∀ v, ¬Defines C.locale o name v) → meaning tbl' name = meaning tbl name) ∧
      (st = .success ∨ st = .failure) ∧
      (st = .success ↔ ∀ before o after, ops = before ++ o :: after → (∃ n v, Defines C.locale o n v) ∨
        (ValidName C.locale o ∧ (meaning tbl o ≠ none ∨ ∃ b ∈ before, ∃ v, Defines C.locale b o v))) := by
  rw [bi_alias hf hp hu, if_neg (by simpa using ho)]
  refine ⟨_, _, _, rfl, fun b n v a h1 h2 h3 => loop_last _ _ b a h1 h2 h3, fun n h => loop_keep _ _ h, ?_, ?_⟩
  · split <;> simp
  · rw [← loop_status (g := g) (p := p)]
    cases (aliasLoop C g p ops tbl).2.2 <;> simp

/-! ## Removing aliases -/

theorem unloop_meaning : ∀ (ops : List Str) (tbl : List Alias) (name : Str), meaning (unaliasLoop ops tbl).1 name = if name ∈ ops then none else meaning tbl name := by
  intro ops
  induction ops with
  | nil => intro tbl name; simp [unaliasLoop]
  | cons o ops ih =>
    intro tbl name
    show meaning (unaliasLoop ops (removeAlias tbl o)).1 name = _
    rw [ih, meaning_remove]
    by_cases h1 : name ∈ ops
    · simp [h1]
    · by_cases h2 : name = o <;> simp [h1, h2]

theorem unloop_status : ∀ (ops : List Str) (tbl : List Alias), (unaliasLoop ops tbl).2 = true ↔ ops.Nodup ∧ ∀ o ∈ ops, meaning tbl o ≠ none := by
  intro ops
  induction ops with
  | nil => intro tbl; simp [unaliasLoop]
  | cons o ops ih =>
    intro tbl
    have : (unaliasLoop (o :: ops) tbl).2 = ((lookup tbl o).isSome && (unaliasLoop ops (removeAlias tbl o)).2) := rfl
    rw [this, Bool.and_eq_true, ih, List.nodup_cons]
    have hm : (lookup tbl o).isSome = true ↔ meaning tbl o ≠ none := by
      unfold meaning
      cases lookup tbl o <;> simp
    rw [hm]
    simp only [meaning_remove]
    constructor
    · rintro ⟨h1, h2, h3⟩
      refine ⟨⟨fun h => by simpa using h3 o h, h2⟩, fun x hx => ?_⟩
      rcases List.mem_cons.1 hx with rfl | hx
      · exact h1
      · have := h3 x hx
        split at this
        · exact absurd rfl this
        · exact this
    · rintro ⟨⟨h1, h2⟩, h3⟩
      refine ⟨h3 o (by simp), h2, fun x hx => ?_⟩
      rw [if_neg (by rintro rfl; exact h1 hx)]
      exact h3 x (by simp [hx])

theorem un_parse {C : Config} {args ops : List Str} (hu : Usage [] args ops) :
    ∃ used, Xgetopt.Spec.parse (C.getopt unaliasOptions) none args = ⟨[], used, ops, .done⟩ := by
  cases hu with
  | plain ho => exact ⟨_, bi_operands _ ho⟩
  | separated => exact ⟨_, bi_sep _ _⟩

/-- `unalias` with operands: exactly the aliases that the operands name are removed, and the exit status is 0 if and only if the operands are different names
of aliases. -/
theorem unalias_removes {C : Config} {args ops : List Str} (hu : Usage [] args ops) (ho : ops ≠ []) (tbl : List Alias) :
    ∃ tbl' st, unaliasBuiltin C args tbl = some (tbl', [], st) ∧ (∀ name, meaning tbl' name = if name ∈ ops then none else meaning tbl name) ∧
      (st = .success ∨ st = .failure) ∧ (st = .success ↔ ops.Nodup ∧ ∀ o ∈ ops, meaning tbl o ≠ none) := by
  obtain ⟨used, h⟩ := un_parse (C := C) hu
  unfold unaliasBuiltin
  simp only [h, List.any_nil, Bool.false_eq_true, if_false, List.isEmpty_iff, ho]
  refine ⟨_, _, rfl, fun n => unloop_meaning ops tbl n, ?_, ?_⟩
  · split <;> simp
  · rw [← unloop_status]
    cases (unaliasLoop ops tbl).2 <;> simp

theorem un_all {C : Config} {opt : Str} {args ops : List Str} (h : opt = "-a".toList ∨ (opt = "--all".toList ∧ C.posix = false)) (hu : Usage [opt] args ops) (tbl : List Alias) :
    unaliasBuiltin C args tbl = if ops.isEmpty then some ([], [], .success) else some (tbl, [], .error) := by
  have key : ∀ rest used, Xgetopt.Spec.parse (C.getopt unaliasOptions) none rest = ⟨[], used, ops, .done⟩ →
      Xgetopt.Spec.parse (C.getopt unaliasOptions) none (opt :: rest) = ⟨[(⟨'a', some "all".toList, .none, true⟩, none)], opt :: used, ops, .done⟩ := by
    intro rest used hr
    rw [Xgetopt.Spec.parse]
    rcases h with rfl | ⟨rfl, hp⟩
    · have hC : C.getopt unaliasOptions = ⟨unaliasOptions, C.posix, false, false, C.isDigit⟩ := rfl
      have k1 : Xgetopt.Spec.kind (C.getopt unaliasOptions) "-a".toList = .short ['a'] := by
        rw [hC]
        cases C.posix <;> rfl
      have k2 : Xgetopt.Spec.cluster (C.getopt unaliasOptions) none ['a'] = .complete [(⟨'a', some "all".toList, .none, true⟩, none)] none := by
        rw [hC]
        cases C.posix <;> rfl
      simp only [k1, k2, hr, List.cons_append, List.nil_append]
    · have hC : C.getopt unaliasOptions = ⟨unaliasOptions, false, false, false, C.isDigit⟩ := by rw [Config.getopt, hp]
      have k1 : Xgetopt.Spec.kind (C.getopt unaliasOptions) "--all".toList = .long "all".toList [] := by rw [hC]; rfl
      have k2 : Xgetopt.Spec.long (C.getopt unaliasOptions) none "all".toList [] = .complete [(⟨'a', some "all".toList, .none, true⟩, none)] none := by rw [hC]; rfl
      simp only [k1, k2, hr, List.cons_append, List.nil_append]
  have : ∃ used, Xgetopt.Spec.parse (C.getopt unaliasOptions) none args = ⟨[(⟨'a', some "all".toList, .none, true⟩, none)], used, ops, .done⟩ := by
    cases hu with
    | plain ho => exact ⟨_, key _ _ (bi_operands _ ho)⟩
    | separated => exact ⟨_, key _ _ (bi_sep _ _)⟩
  obtain ⟨used, h1⟩ := this
  unfold unaliasBuiltin
  rw [h1]
  rfl

/-- `unalias -a`: no alias is left. -/
theorem unalias_all {C : Config} {opt : Str} {args : List Str} (h : opt = "-a".toList ∨ (opt = "--all".toList ∧ C.posix = false)) (hu : Usage [opt] args []) (tbl : List Alias) :
    ∃ tbl', unaliasBuiltin C args tbl = some (tbl', [], .success) ∧ ∀ name, meaning tbl' name = none := by
  rw [un_all h hu]
  exact ⟨[], rfl, fun _ => rfl⟩

/-- `unalias` needs either `-a` or operands, but not both. -/
theorem unalias_refuses {C : Config} {opt : Str} {args ops : List Str}
    (h : (Usage [] args ops ∧ ops = []) ∨ ((opt = "-a".toList ∨ (opt = "--all".toList ∧ C.posix = false)) ∧ Usage [opt] args ops ∧ ops ≠ [])) (tbl : List Alias) :
    unaliasBuiltin C args tbl = some (tbl, [], .error) := by
  rcases h with ⟨hu, rfl⟩ | ⟨h, hu, ho⟩
  · obtain ⟨used, h⟩ := un_parse (C := C) hu
    unfold unaliasBuiltin
    rw [h]
    rfl
  · rw [un_all h hu, if_neg (by simpa using ho)]

/-- In the POSIX mode the options of `alias` are refused. -/
theorem posix_refuses {C : Config} (hp : C.posix = true) {opt : Str} (h : opt = "-g".toList ∨ opt = "-p".toList ∨ opt = "--global".toList ∨ opt = "--prefix".toList) (rest : List Str)
    (tbl : List Alias) : aliasBuiltin C (opt :: rest) tbl = some (tbl, [], .error) := by
  have hC : C.getopt aliasOptions = ⟨aliasOptions, true, false, false, C.isDigit⟩ := by rw [Config.getopt, hp]
  unfold aliasBuiltin
  rw [Xgetopt.Spec.parse, hC]
  rcases h with rfl | rfl | rfl | rfl <;> rfl

/-! ## The names of aliases -/

/-- The names are different and valid. -/
structure BuiltinInv (L : Locale) (tbl : List Alias) : Prop where
  distinct : (tbl.map (·.name)).Nodup
  valid : ∀ a ∈ tbl, ValidName L a.name

theorem BuiltinInv.remove {L : Locale} {tbl : List Alias} (h : BuiltinInv L tbl) (n : Str) : BuiltinInv L (removeAlias tbl n) :=
  ⟨h.distinct.sublist (List.filter_sublist.map _), fun a ha => h.valid a (List.mem_filter.1 ha).1⟩

theorem BuiltinInv.define {L : Locale} {tbl : List Alias} (h : BuiltinInv L tbl) {n : Str} (hn : ValidName L n) (v : Str) (g : Bool) : BuiltinInv L (defineAlias tbl n v g) := by
  refine ⟨?_, ?_⟩
  · rw [defineAlias, List.map_cons, List.nodup_cons]
    refine ⟨?_, (h.remove n).distinct⟩
    intro hm
    obtain ⟨a, ha, he⟩ := List.mem_map.1 hm
    have := (List.mem_filter.1 ha).2
    simp at this he
    exact this he
  · intro a ha
    rcases List.mem_cons.1 ha with rfl | ha
    · exact hn
    · exact (h.remove n).valid a ha

theorem BuiltinInv.loop {C : Config} {g p : Bool} : ∀ (ops : List Str) {tbl : List Alias}, BuiltinInv C.locale tbl → BuiltinInv C.locale (aliasLoop C g p ops tbl).1
  | [], _, h => h
  | o :: ops, tbl, h => by
    refine BuiltinInv.loop ops (tbl := (aliasOperand C g p o tbl).1) ?_
    rcases operand_cases C g p o tbl with ⟨n, v, h1, h2⟩ | ⟨-, h2, -⟩
    · rw [h2]; exact h.define h1.1 v g
    · rw [h2]; exact h

theorem BuiltinInv.unloop {L : Locale} : ∀ (ops : List Str) {tbl : List Alias}, BuiltinInv L tbl → BuiltinInv L (unaliasLoop ops tbl).1
  | [], _, h => h
  | o :: ops, _, h => BuiltinInv.unloop ops (h.remove o)

theorem reachable_inv {L : Locale} {tbl : List Alias} (h : Reachable L tbl) : BuiltinInv L tbl := by
  induction h with
  | initial => exact ⟨by simp, by simp⟩
  | @alias tbl tbl' C args out st _ hL he ih =>
    subst hL
    unfold aliasBuiltin at he
    simp only at he
    split at he
    · cases he
    · split at he
      · cases he; exact ih
      · split at he
        · cases he; exact ih
        · cases he; exact ih.loop _
  | @unalias tbl tbl' C args out st _ hL he ih =>
    unfold unaliasBuiltin at he
    simp only at he
    split at he
    · cases he
    · split at he
      · cases he; exact ih
      · split at he
        · split at he
          · cases he; exact ⟨by simp, by simp⟩
          · cases he; exact ih
        · split at he
          · cases he; exact ih
          · cases he; exact ih.unloop _

/-- Whatever is done with the built-ins, only valid names are aliases. -/
theorem names_valid {L : Locale} {tbl : List Alias} (h : Reachable L tbl) {name : Str} (hm : meaning tbl name ≠ none) : ValidName L name := by
  unfold meaning lookup at hm
  cases hf : tbl.find? fun a => a.name == name with
  | none => simp [hf] at hm
  | some a =>
    have := List.find?_some hf
    have hn : a.name = name := beq_iff_eq.1 this
    rw [← hn]
    exact (reachable_inv h).valid a (List.mem_of_find?_eq_some hf)

/-! ## Printing aliases -/

theorem plain_ordinary {L : Locale} {n : Str} (hv : ValidName L n) (hp : Plain n) : ∀ c ∈ n, Ordinary L c := by
  intro c hc
  have h := hv.2 c hc
  obtain ⟨p1, p2, p3, p4, p5⟩ := hp
  refine ⟨?_, h.1⟩
  have h1 : c ≠ '{' := by rintro rfl; exact p1 hc
  have h2 : c ≠ '*' := by rintro rfl; exact p2 hc
  have h3 : c ≠ '?' := by rintro rfl; exact p3 hc
  have h4 : c ≠ '[' := by rintro rfl; exact p4 hc
  have h5 : c ≠ '~' := by rintro rfl; exact p5 hc
  simp [h, h1, h2, h3, h4, h5]

theorem literal_definition {L : Locale} (hL : LocaleOk L) {n : Str} (hv : ValidName L n) (hp : Plain n) (v : Str) :
    Literal L (n ++ '=' :: quoteAsWord L v) (n ++ '=' :: v) := by
  have h1 : Literal L (n ++ ['=']) (n ++ ['=']) := by
    refine literal_chars (by simp) fun c hc => ?_
    rcases List.mem_append.1 hc with hc | hc
    · exact plain_ordinary hv hp c hc
    · rw [List.mem_singleton.1 hc]
      exact ⟨by decide, hL.ok.punct_blank '=' (by decide)⟩
  simpa using h1.append (literal_quote hL.ok v)

/-- The words of the printed command and what they stand for. -/
def aliasWords (L : Locale) (n : Str) (a : Alias) : List (Str × Str) :=
  ("alias".toList, "alias".toList) :: ((if a.isGlobal then [("-g".toList, "-g".toList)] else []) ++
    ((if n.head? = some '-' then [("--".toList, "--".toList)] else []) ++ [(n ++ '=' :: quoteAsWord L a.value, n ++ '=' :: a.value)]))

theorem print_words (L : Locale) (n : Str) (a : Alias) : printAlias L n a true = lineOf ((aliasWords L n a).map (·.1)) := by
  unfold printAlias aliasWords
  cases a.isGlobal <;> by_cases h : n.head? = some '-' <;> simp [h, lineOf]

theorem words_ok {L : Locale} (hL : LocaleOk L) {n : Str} (hv : ValidName L n) (hp : Plain n) (a : Alias) : Script.Line L (aliasWords L n a) := by
  have hd : Ordinary L '-' := ⟨by decide, hL.ok.punct_blank '-' (by decide)⟩
  have ha : NameWord L "alias".toList := by
    have h : ∀ d ∈ "alias".toList, 'a' ≤ d ∧ d ≤ 'z' := by decide
    exact ⟨'a', "lias".toList, rfl, by decide, fun d hd => .inr (hL.lower d (h d hd).1 (h d hd).2)⟩
  refine Script.line_name hL ha (by decide) ?_
  intro w hw
  rcases List.mem_append.1 hw with hw | hw
  · split at hw
    · rw [List.mem_singleton.1 hw]
      refine literal_chars (by decide) fun c hc => ?_
      have : ∀ c ∈ "-g".toList, c = '-' ∨ c = 'g' := by decide
      rcases this c hc with rfl | rfl
      · exact hd
      · exact ⟨by decide, hL.ok.alnum_blank _ (hL.lower 'g' (by decide) (by decide))⟩
    · simp at hw
  · rcases List.mem_append.1 hw with hw | hw
    · split at hw
      · rw [List.mem_singleton.1 hw]
        refine literal_chars (by decide) fun c hc => ?_
        have : ∀ c ∈ "--".toList, c = '-' := by decide
        rw [this c hc]
        exact hd
      · simp at hw
    · rw [List.mem_singleton.1 hw]
      exact literal_definition hL hv hp a.value

theorem words_exec {C : Config} {env : List Alias → Expand.Env (List Alias)} {n : Str} (hv : ValidName C.locale n) (a : Alias) (hp : C.posix = false ∨ a.isGlobal = false) (tbl : List Alias) :
    (shell C env).exec ((aliasWords C.locale n a).map (·.2)) tbl = some (defineAlias tbl n a.value a.isGlobal) := by
  have hu : ∃ opts args, (aliasWords C.locale n a).map (·.2) = "alias".toList :: args ∧ Options a.isGlobal false opts ∧ Usage opts args [n ++ '=' :: a.value] ∧
      (C.posix = false ∨ opts = []) := by
    have hnot : n.head? ≠ some '-' → ∀ o ∈ [n ++ '=' :: a.value], o.head? = some '-' → o = ['-'] := by
      intro hn o ho hh
      rw [List.mem_singleton.1 ho] at hh
      have := hv.1
      cases n with
      | nil => exact absurd rfl this
      | cons c n => exact absurd hh hn
    unfold aliasWords
    cases hg : a.isGlobal with
    | true =>
      rw [hg] at hp
      have hp : C.posix = false := by simpa using hp
      by_cases hn : n.head? = some '-'
      · exact ⟨["-g".toList], _, by simp only [hn, if_true]; rfl, .global (.inl rfl) .nil, .separated, .inl hp⟩
      · exact ⟨["-g".toList], _, by simp only [hn, if_true, if_false]; rfl, .global (.inl rfl) .nil, .plain (hnot hn), .inl hp⟩
    | false =>
      by_cases hn : n.head? = some '-'
      · exact ⟨[], _, by simp only [hn, if_true, Bool.false_eq_true, if_false]; rfl, .nil, .separated, .inr rfl⟩
      · exact ⟨[], _, by simp only [hn, Bool.false_eq_true, if_false]; rfl, .nil, .plain (hnot hn), .inr rfl⟩
  obtain ⟨opts, args, h1, h2, h3, h4⟩ := hu
  rw [h1]
  have := bi_alias h2 h4 h3 tbl
  simp only [List.isEmpty_cons, Bool.false_eq_true, if_false, aliasLoop, operand_defines ⟨hv, rfl⟩] at this
  simp only [shell, this, if_true]
  rfl

theorem run_aliases {C : Config} (hL : LocaleOk C.locale) {env : List Alias → Expand.Env (List Alias)} (hE : ∀ s, (env s).locale = C.locale ∧ (env s).long.Ok)
    (l : List Alias) (hl : ∀ a ∈ l, ValidName C.locale a.name ∧ Plain a.name ∧ (C.posix = false ∨ a.isGlobal = false)) (tbl : List Alias) :
    Script.run (shell C env) (l.flatMap fun a => printAlias C.locale a.name a true) tbl = some (l.foldl (fun t a => defineAlias t a.name a.value a.isGlobal) tbl) := by
  have h1 : (l.flatMap fun a => printAlias C.locale a.name a true) = (l.map fun a => aliasWords C.locale a.name a).flatMap fun ws => lineOf (ws.map (·.1)) := by
    rw [List.flatMap_map]
    simp only [print_words]
  rw [h1, Script.run_eq (shell C env) hL hE]
  · rw [List.map_map]
    induction l generalizing tbl with
    | nil => rfl
    | cons a l ih =>
      obtain ⟨g1, g2, g3⟩ := hl a (by simp)
      rw [List.map_cons, Script.execAll]
      show ((shell C env).exec ((aliasWords C.locale a.name a).map (·.2)) tbl).bind _ = _
      rw [words_exec g1 a g3, Option.bind_some]
      refine ih (fun x hx => hl x (by simp [hx])) _ ?_
      rw [List.flatMap_map]
      simp only [print_words]
  · intro ws hws
    obtain ⟨a, ha, rfl⟩ := List.mem_map.1 hws
    exact words_ok hL (hl a ha).1 (hl a ha).2.1 a

theorem fold_keep : ∀ (l : List Alias) (tbl : List Alias) (n : Str), (∀ a ∈ l, a.name ≠ n) →
    meaning (l.foldl (fun t a => defineAlias t a.name a.value a.isGlobal) tbl) n = meaning tbl n
  | [], _, _, _ => rfl
  | a :: l, tbl, n, h => by
    rw [List.foldl_cons, fold_keep l _ n fun x hx => h x (by simp [hx]), meaning_define, if_neg fun e => h a (by simp) e.symm]

theorem fold_meaning : ∀ (l : List Alias) (tbl : List Alias), (l.map (·.name)).Nodup → ∀ a ∈ l,
    meaning (l.foldl (fun t a => defineAlias t a.name a.value a.isGlobal) tbl) a.name = some (a.value, a.isGlobal)
  | [], _, _, _, h => by simp at h
  | b :: l, tbl, hd, a, ha => by
    rw [List.map_cons, List.nodup_cons] at hd
    rw [List.foldl_cons]
    rcases List.mem_cons.1 ha with rfl | ha
    · rw [fold_keep, meaning_define, if_pos rfl]
      intro x hx e
      exact hd.1 (List.mem_map.2 ⟨x, hx, e⟩)
    · exact fold_meaning l _ hd.2 a ha

theorem meaning_mem {L : Locale} {tbl : List Alias} (h : BuiltinInv L tbl) {a : Alias} (ha : a ∈ tbl) : meaning tbl a.name = some (a.value, a.isGlobal) := by
  have hd := h.distinct
  clear h
  unfold meaning lookup
  induction tbl with
  | nil => simp at ha
  | cons b tbl ih =>
    rw [List.map_cons, List.nodup_cons] at hd
    rcases List.mem_cons.1 ha with rfl | ha
    · simp
    · rw [List.find?_cons_of_neg]
      · exact ih ha hd.2
      · intro e
        exact hd.1 (List.mem_map.2 ⟨a, ha, by simpa using (beq_iff_eq.1 e).symm⟩)

theorem mem_meaning {tbl : List Alias} {n : Str} {r : Str × Bool} (h : meaning tbl n = some r) : ∃ a ∈ tbl, a.name = n ∧ (a.value, a.isGlobal) = r := by
  unfold meaning lookup at h
  cases hf : tbl.find? fun a => a.name == n with
  | none => simp [hf] at h
  | some a => exact ⟨a, List.mem_of_find?_eq_some hf, by simpa using List.find?_some hf, by simpa [hf] using h⟩

/-- `alias -p`: the listing, executed in another shell, gives every alias the value it had and makes it global if it was; aliases that were not listed
stay as they are there. It does not hold for all names: see `name_unquoted`. -/
theorem aliases_restored_partial {C : Config} (hp : C.posix = false) (hs : ∀ l, (C.sort l).Perm l) (hL : LocaleOk C.locale)
    {env : List Alias → Expand.Env (List Alias)} (hE : ∀ s, (env s).locale = C.locale ∧ (env s).long.Ok) {g : Bool} {opts args : List Str} (hf : Options g true opts) (hu : Usage opts args [])
    {tbl : List Alias} (ht : Reachable C.locale tbl) (hn : ∀ name, meaning tbl name ≠ none → Plain name) (tbl2 : List Alias) :
    ∃ text, aliasBuiltin C args tbl = some (tbl, text, .success) ∧ ∃ tbl2', Script.run (shell C env) text tbl2 = some tbl2' ∧
      ∀ name, meaning tbl2' name = (meaning tbl name).or (meaning tbl2 name) := by
  have hi := reachable_inv ht
  rw [bi_alias hf (.inl hp) hu]
  refine ⟨_, rfl, _, run_aliases hL hE (C.sort tbl) ?_ tbl2, ?_⟩
  · intro a ha
    have ha := (hs tbl).mem_iff.1 ha
    refine ⟨hi.valid a ha, hn _ ?_, .inl hp⟩
    rw [meaning_mem hi ha]
    simp
  · intro n
    have hnd : ((C.sort tbl).map (·.name)).Nodup := ((hs tbl).map _).nodup_iff.2 hi.distinct
    cases hm : meaning tbl n with
    | none =>
      rw [fold_keep]
      · rfl
      · rintro a ha rfl
        rw [meaning_mem hi ((hs tbl).mem_iff.1 ha)] at hm
        cases hm
    | some r =>
      obtain ⟨a, ha, rfl, rfl⟩ := mem_meaning hm
      rw [fold_meaning _ _ hnd a ((hs tbl).mem_iff.2 ha)]
      rfl

/-- `alias -p name` prints a command that defines the alias again, and so does `command -v name` if the alias is not global. -/
theorem alias_printed_partial {C : Config} (hL : LocaleOk C.locale)
    {env : List Alias → Expand.Env (List Alias)} (hE : ∀ s, (env s).locale = C.locale ∧ (env s).long.Ok) {tbl : List Alias} {name value : Str} {global : Bool} (hv : ValidName C.locale name) (hn : Plain name)
    (hm : meaning tbl name = some (value, global)) (tbl2 : List Alias) :
    ∃ text tbl2', (global = false → printIfDefined C name tbl = some text) ∧ (global = true → printIfDefined C name tbl = none) ∧
      (C.posix = false ∨ global = false → Script.run (shell C env) text tbl2 = some tbl2') ∧
      (∀ n, meaning tbl2' n = if n = name then some (value, global) else meaning tbl2 n) ∧
      ∀ {g : Bool} {opts args : List Str}, C.posix = false → Options g true opts → Usage opts args [name] → aliasBuiltin C args tbl = some (tbl, text, .success) := by
  unfold meaning at hm
  obtain ⟨a, ha, he⟩ := Option.map_eq_some_iff.1 hm
  cases he
  have hname : a.name = name := by
    have := List.find?_some ha
    simpa using this
  refine ⟨printAlias C.locale name a true, defineAlias tbl2 name a.value a.isGlobal, ?_, ?_, ?_, fun n => meaning_define _ _ _ _ _, ?_⟩
  · intro hg
    simp [printIfDefined, ha, hg]
  · intro hg
    simp [printIfDefined, ha, hg]
  · intro hg
    have := run_aliases hL hE [a] (by rw [hname.symm] at hv hn; simpa using ⟨hv, hn, hg⟩) tbl2
    simpa [hname] using this
  · intro g opts args hp hf hu
    rw [bi_alias hf (.inl hp) hu]
    simp [aliasLoop, operand_prints hv, ha]

/-- `alias name` prints one word, which stands for the definition. -/
theorem definition_printed_partial {C : Config} (hL : LocaleOk C.locale) {tbl : List Alias} {name value : Str} {global : Bool} (hv : ValidName C.locale name) (hn : Plain name)
    (hm : meaning tbl name = some (value, global)) {g : Bool} {opts args : List Str} (hf : Options g false opts) (hp : C.posix = false ∨ opts = []) (hu : Usage opts args [name]) :
    ∃ word, aliasBuiltin C args tbl = some (tbl, word ++ ['\n'], .success) ∧ Literal C.locale word (name ++ '=' :: value) := by
  unfold meaning at hm
  obtain ⟨a, ha, he⟩ := Option.map_eq_some_iff.1 hm
  cases he
  refine ⟨name ++ '=' :: quoteAsWord C.locale a.value, ?_, literal_definition hL hv hn _⟩
  rw [bi_alias hf hp hu]
  simp [aliasLoop, operand_prints hv, ha, printAlias]

/-- `alias` prints such a word for every alias and nothing else. -/
theorem definitions_printed_partial {C : Config} (hs : ∀ l, (C.sort l).Perm l) (hL : LocaleOk C.locale) {tbl : List Alias} (ht : Reachable C.locale tbl)
    (hn : ∀ name, meaning tbl name ≠ none → Plain name) {g : Bool} {opts args : List Str} (hf : Options g false opts) (hp : C.posix = false ∨ opts = []) (hu : Usage opts args []) :
    ∃ lines : List (Str × Str × Str), aliasBuiltin C args tbl = some (tbl, lines.flatMap fun l => l.1 ++ ['\n'], .success) ∧ (lines.map (·.2.1)).Nodup ∧
      (∀ l ∈ lines, Literal C.locale l.1 (l.2.1 ++ '=' :: l.2.2)) ∧ ∀ name value, (∃ w, (w, name, value) ∈ lines) ↔ ∃ g, meaning tbl name = some (value, g) := by
  have hi := reachable_inv ht
  rw [bi_alias hf hp hu]
  refine ⟨(C.sort tbl).map fun a => (a.name ++ '=' :: quoteAsWord C.locale a.value, a.name, a.value), ?_, ?_, ?_, ?_⟩
  · rw [List.flatMap_map]
    simp [printAlias]
  · rw [List.map_map]
    exact ((hs tbl).map _).nodup_iff.2 hi.distinct
  · intro l hl
    obtain ⟨a, ha, rfl⟩ := List.mem_map.1 hl
    have ha := (hs tbl).mem_iff.1 ha
    exact literal_definition hL (hi.valid a ha) (hn _ (by rw [meaning_mem hi ha]; simp)) _
  · intro name value
    constructor
    · rintro ⟨w, hw⟩
      obtain ⟨a, ha, he⟩ := List.mem_map.1 hw
      cases he
      exact ⟨_, meaning_mem hi ((hs tbl).mem_iff.1 ha)⟩
    · rintro ⟨g, hm⟩
      obtain ⟨a, ha, rfl, he⟩ := mem_meaning hm
      cases he
      exact ⟨_, List.mem_map.2 ⟨a, (hs tbl).mem_iff.2 ha, rfl⟩⟩

end Yash.Alias
