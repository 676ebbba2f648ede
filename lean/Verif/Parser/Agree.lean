import Verif.Parser.Progress
import Verif.Parser.Items
/-!
# The bound on the nesting does not matter

If the bound is larger than the length of the text, the parser gives the same result for any bound.
-/
set_option autoImplicit false

namespace Yash.Parser

open Syntax
open Expand (Locale)

variable {L : Locale} {R R' : Rec} {k : Nat}

theorem bind_agree {α β : Type} {x x' : Option α} {f f' : α → Option β} (hx : x = x') (hf : ∀ a, x = some a → f a = f' a) :
    (x >>= f) = (x' >>= f') := by
  subst hx
  cases h : x with
  | none => rfl
  | some a => exact hf a h

theorem ite_agree {α : Type} {c : Prop} [Decidable c] {a a' b b' : α} (h1 : c → a = a') (h2 : ¬c → b = b') :
    (if c then a else b) = (if c then a' else b') := by
  by_cases h : c
  · rw [if_pos h, if_pos h, h1 h]
  · rw [if_neg h, if_neg h, h2 h]

/-- The functions give the same results for texts shorter than `k`. -/
structure Agree (k : Nat) (R R' : Rec) : Prop where
  fuel : k < R.fuel
  fuel' : k < R'.fuel
  special : ∀ indq st, st.rest.length < k → R.special indq st = R'.special indq st
  brace : ∀ st, st.rest.length + 1 < k → R.brace st = R'.brace st
  list : ∀ tk, tk.src.rest.length + bonus tk < k → R.list tk = R'.list tk
  compound : ∀ tk, tk.src.rest.length + bonus tk < k → R.compound tk = R'.compound tk
  ors : ∀ tk, tk.src.rest.length + bonus tk < k → R.ors tk = R'.ors tk

/-! ## Words -/

theorem parseWordLoop_agree {sp sp' : Special} {delim : Char → Bool} (hs : SpecialPr sp)
    (ha : ∀ indq st, st.rest.length < k → sp indq st = sp' indq st) (n n' : Nat) {indq : Bool} {acc : List Char} {st : Src}
    (hk : st.rest.length < k) (h1 : st.rest.length < n) (h2 : st.rest.length < n') :
    parseWordLoop sp delim n indq acc st = parseWordLoop sp' delim n' indq acc st := by
  induction n generalizing n' indq acc st with
  | zero => omega
  | succ n ih =>
    obtain ⟨n', rfl⟩ : ∃ m, n' = m + 1 := ⟨n' - 1, by omega⟩
    obtain ⟨b, r⟩ := st
    simp only at hk h1 h2
    simp only [parseWordLoop]
    cases hl : lineCont r with
    | nil => rfl
    | cons c r1 =>
      have hlen := of_lineCont hl
      simp only [List.length_cons] at hlen
      refine ite_agree (fun _ => rfl) fun _ => ite_agree (fun _ => ?_) fun _ => ite_agree (fun _ => ?_) fun _ => ite_agree (fun _ => ?_) fun _ => ?_
      · cases r1 with
        | nil =>
          simp only [List.length_nil] at hlen
          exact ih _ (by simp only [List.length_nil]; omega) (by simp only [List.length_nil]; omega) (by simp only [List.length_nil]; omega)
        | cons d r2 =>
          simp only [List.length_cons] at hlen
          exact ih _ (by simp only; omega) (by simp only; omega) (by simp only; omega)
      · rw [← ha indq ⟨b, c :: r1⟩ (by simp only [List.length_cons]; omega)]
        cases hsp : sp indq ⟨b, c :: r1⟩ with
        | none => rfl
        | some p =>
          obtain ⟨u, b2, r2⟩ := p
          obtain ⟨g1, g2⟩ := hs _ _ _ _ hsp
          cases u with
          | some u =>
            have g2 := (g2 (by simp)).1
            simp only [List.length_cons] at g2
            simp only
            rw [ih n' (st := ⟨b2, r2⟩) (by simp only; omega) (by simp only; omega) (by simp only; omega)]
          | none =>
            have g1 := g1.1
            cases r2 with
            | nil => rfl
            | cons d r3 =>
              simp only [List.length_cons] at g1
              simp only
              rw [ih n' (st := ⟨d :: b2, r3⟩) (by simp only; omega) (by simp only; omega) (by simp only; omega)]
      · have g0 : (r1.takeWhile (· ≠ '\'')).length + (r1.dropWhile (· ≠ '\'')).length = r1.length := by
          rw [← List.length_append, List.takeWhile_append_dropWhile]
        cases hd : r1.dropWhile (· ≠ '\'') with
        | nil => rfl
        | cons d r2 =>
          rw [hd] at g0
          simp only [List.length_cons] at g0
          exact ih _ (by simp only; omega) (by simp only; omega) (by simp only; omega)
      · exact ih _ (by simp only; omega) (by simp only; omega) (by simp only; omega)

section
variable (hR : Prog R) (hA : Agree k R R')
include hR hA

theorem parseWord_agree {delim : Char → Bool} {st : Src} (hk : st.rest.length < k) : parseWord R.special delim st = parseWord R'.special delim st :=
  parseWordLoop_agree hR.special hA.special _ _ hk (by omega) (by omega)

theorem nextToken_agree {st : Src} (hk : st.rest.length < k) : nextToken L R.special st = nextToken L R'.special st := by
  unfold nextToken
  have hlen : (skipComment (skipBlanks L st.before st.rest)).rest.length < k := by
    have h1 := (skipBlanks_fwd (L := L) st.before st.rest).1.1
    have h2 : (skipComment (skipBlanks L st.before st.rest)).rest.length ≤ (skipBlanks L st.before st.rest).rest.length := by
      generalize skipBlanks L st.before st.rest = st1
      unfold skipComment
      split
      · rename_i r1 hr
        have g0 : (r1.takeWhile (· ≠ '\n')).length + (r1.dropWhile (· ≠ '\n')).length = r1.length := by
          rw [← List.length_append, List.takeWhile_append_dropWhile]
        rw [hr, List.length_cons]
        simp only
        omega
      · exact Nat.le_refl _
    simp only at h1
    omega
  generalize skipComment (skipBlanks L st.before st.rest) = st1 at hlen
  obtain ⟨b, r⟩ := st1
  cases r with
  | nil => rfl
  | cons c r => simp only [tokenAt, parseWord_agree hR hA (delim := isTokenDelimiter L) (st := ⟨b, c :: r⟩) hlen]

/-! ## Word units -/

theorem arithLoop_agree (n n' : Nat) {nest : Nat} {acc : List Char} {st : Src}
    (hk : st.rest.length < k) (h1 : st.rest.length < n) (h2 : st.rest.length < n') :
    arithLoop R n nest acc st = arithLoop R' n' nest acc st := by
  induction n generalizing n' nest acc st with
  | zero => omega
  | succ n ih =>
    obtain ⟨n', rfl⟩ : ∃ m, n' = m + 1 := ⟨n' - 1, by omega⟩
    obtain ⟨b, r⟩ := st
    simp only at hk h1 h2
    simp only [arithLoop]
    cases hl : lineCont r with
    | nil => rfl
    | cons c r1 =>
      have hlen := of_lineCont hl
      simp only [List.length_cons] at hlen
      refine ite_agree (fun _ => ?_) fun _ => ite_agree (fun _ => ?_) fun _ => ite_agree (fun _ => ?_) fun _ => ite_agree (fun _ => ?_) fun _ => ?_
      · cases r1 with
        | nil => rfl
        | cons d r2 =>
          simp only [List.length_cons] at hlen
          exact ih _ (by simp only; omega) (by simp only; omega) (by simp only; omega)
      · rw [← hA.special false ⟨b, c :: r1⟩ (by simp only [List.length_cons]; omega)]
        cases hsp : R.special false ⟨b, c :: r1⟩ with
        | none => rfl
        | some p =>
          obtain ⟨u, b2, r2⟩ := p
          obtain ⟨g1, g2⟩ := hR.special _ _ _ _ hsp
          cases u with
          | some u =>
            have g2 := (g2 (by simp)).1
            simp only [List.length_cons] at g2
            simp only
            rw [ih n' (st := ⟨b2, r2⟩) (by simp only; omega) (by simp only; omega) (by simp only; omega)]
          | none =>
            have g1 := g1.1
            cases r2 with
            | nil => rfl
            | cons d r3 =>
              simp only [List.length_cons] at g1
              simp only
              rw [ih n' (st := ⟨d :: b2, r3⟩) (by simp only; omega) (by simp only; omega) (by simp only; omega)]
      · exact ih _ (by simp only; omega) (by simp only; omega) (by simp only; omega)
      · cases nest with
        | zero => rfl
        | succ nest => exact ih _ (by simp only; omega) (by simp only; omega) (by simp only; omega)
      · exact ih _ (by simp only; omega) (by simp only; omega) (by simp only; omega)

theorem paramBase_agree {st : Src} (hk : st.rest.length < k) : paramBase L R st = paramBase L R' st := by
  obtain ⟨b, r⟩ := st
  simp only at hk
  unfold paramBase
  split
  · rename_i b1 r1 heq
    cases heq
    simp only [List.length_cons] at hk
    exact bind_agree (hA.brace _ (by simp only; omega)) fun _ _ => rfl
  · rename_i b1 r1 heq
    cases heq
    rw [← hA.special false ⟨b, '`' :: r1⟩ hk]
  · rename_i b1 r1 heq
    cases heq
    have := lineCont_length r1
    simp only [List.length_cons] at hk
    rw [← hA.special false ⟨b, '$' :: lineCont r1⟩ (by simp only [List.length_cons]; omega)]
  · rfl

theorem paramIndex_agree {st : Src} (hk : st.rest.length < k) : paramIndex R st = paramIndex R' st := by
  obtain ⟨b, r⟩ := st
  simp only at hk
  unfold paramIndex
  split
  · rename_i b1 r1 heq
    cases heq
    simp only [List.length_cons] at hk
    refine bind_agree (parseWord_agree hR hA (by simp only; omega)) ?_
    rintro ⟨w, b2, r2⟩ h1
    have g1 := (parseWord_fwd hR.special h1).1
    simp only at g1
    refine ite_agree (fun _ => rfl) fun _ => ?_
    cases r2 with
    | nil => rfl
    | cons c r3 =>
      simp only [List.length_cons] at g1
      simp only
      split
      · rfl
      · rename_i heq
        cases heq
        refine bind_agree (parseWord_agree hR hA (by simp only; omega)) fun _ _ => rfl
      · rfl
  · rfl

theorem paramSubst_agree {st : Src} (hk : st.rest.length < k) : paramSubst R st = paramSubst R' st :=
  bind_agree (parseWord_agree hR hA hk) fun _ _ => rfl

theorem paramReplace_agree {st : Src} (hk : st.rest.length < k) : paramReplace R st = paramReplace R' st := by
  refine bind_agree (parseWord_agree hR hA hk) ?_
  rintro ⟨w, b2, r2⟩ h1
  have g1 := (parseWord_fwd hR.special h1).1
  simp only at g1
  simp only
  split
  · rename_i heq
    cases heq
    simp only [List.length_cons] at g1
    exact bind_agree (paramSubst_agree hR hA (by simp only; omega)) fun _ _ => rfl
  · rfl
  · rfl

theorem paramMod_agree {number colon : Bool} {st : Src} (hk : st.rest.length < k) : paramMod R number colon st = paramMod R' number colon st := by
  obtain ⟨b, r⟩ := st
  simp only at hk
  cases r with
  | nil => rfl
  | cons c r =>
    simp only [List.length_cons] at hk
    have hl := lineCont_length r
    simp only [paramMod]
    refine ite_agree (fun _ => rfl) fun _ => ite_agree (fun _ => rfl) fun _ => ?_
    cases substOp c with
    | some op => exact bind_agree (paramSubst_agree hR hA (by simp only; omega)) fun _ _ => rfl
    | none =>
      refine ite_agree (fun _ => ite_agree (fun _ => rfl) fun _ => ite_agree (fun _ => ?_) fun _ => ?_) fun _ => ite_agree (fun _ => ite_agree (fun _ => ?_) fun _ => ?_) fun _ => rfl
      · exact bind_agree (paramSubst_agree hR hA (by simp only [List.length_tail]; omega)) fun _ _ => rfl
      · exact bind_agree (paramSubst_agree hR hA (by simp only; omega)) fun _ _ => rfl
      · exact bind_agree (paramReplace_agree hR hA (by simp only; omega)) fun _ _ => rfl
      · cases hr : lineCont r with
        | nil => rfl
        | cons d r1 =>
          rw [hr, List.length_cons] at hl
          refine ite_agree (fun _ => ?_) fun _ => ite_agree (fun _ => ?_) fun _ => ite_agree (fun _ => ?_) fun _ => ?_
          · exact bind_agree (paramReplace_agree hR hA (by simp only; omega)) fun _ _ => rfl
          · exact bind_agree (paramReplace_agree hR hA (by simp only; omega)) fun _ _ => rfl
          · exact bind_agree (paramReplace_agree hR hA (by simp only; omega)) fun _ _ => rfl
          · exact bind_agree (paramReplace_agree hR hA (by simp only [List.length_cons]; omega)) fun _ _ => rfl

theorem brace_agree {st : Src} (hk : st.rest.length < k) : brace L R st = brace L R' st := by
  have g0 := (numberMark_fwd st.before st.rest).1
  simp only at g0
  refine bind_agree (paramBase_agree hR hA (by omega)) ?_
  rintro ⟨base, st1⟩ h1
  have g1 := (paramBase_fwd hR h1).1
  refine bind_agree (paramIndex_agree hR hA (by omega)) ?_
  rintro ⟨w1, w2, st2⟩ h2
  have g2 := (paramIndex_fwd hR h2).1
  have g3 := (paramColon_fwd st2).1
  exact bind_agree (paramMod_agree hR hA (by omega)) fun _ _ => rfl

variable (hn : L.blank '\n' = false)
include hn

theorem cmdsub_agree {st : Src} (hk : st.rest.length < k) : cmdsub L R st = cmdsub L R' st := by
  refine bind_agree (nextToken_agree hR hA hk) fun tk h => ?_
  have g := (nextToken_after hn hR.special h).size
  exact bind_agree (hA.list _ (by omega)) fun _ _ => rfl

theorem special_agree {indq : Bool} {st : Src} (hk : st.rest.length ≤ k) : special L R indq st = special L R' indq st := by
  obtain ⟨b, r⟩ := st
  simp only at hk
  unfold special
  split
  · rename_i b1 r1 heq
    cases heq
    simp only [List.length_cons] at hk
    have hl := lineCont_length r1
    split
    · rename_i r2 hr
      rw [hr, List.length_cons] at hl
      exact bind_agree (brace_agree hR hA (by simp only; omega)) fun _ _ => rfl
    · rename_i r2 hr
      rw [hr, List.length_cons] at hl
      have hl1 := lineCont_length r2
      have hf := hA.fuel
      have hf' := hA.fuel'
      split
      · rename_i r3 hr1
        rw [hr1, List.length_cons] at hl1
        rw [← arithLoop_agree hR hA R.fuel R'.fuel (nest := 0) (acc := []) (st := ⟨'(' :: '(' :: '$' :: b, r3⟩) (by simp only; omega) (by simp only; omega) (by simp only; omega)]
        cases ha : arithLoop R R.fuel 0 [] ⟨'(' :: '(' :: '$' :: b, r3⟩ with
        | none => rfl
        | some p =>
          obtain ⟨w, st1⟩ := p
          cases w with
          | some w => rfl
          | none =>
            have g1 := arithLoop_fwd hR _ ha
            have g2 := (rewind_length ('(' :: '$' :: b) st1).1
            refine bind_agree (cmdsub_agree hR hA hn ?_) fun _ _ => rfl
            rw [g2]
            fwd
      · exact bind_agree (cmdsub_agree hR hA hn (by simp only; omega)) fun _ _ => rfl
    · rfl
  · rfl
  · rfl

/-! ## Tokens -/

omit hn in
theorem next_agree {tk : Token} (hb : bonus tk = 1) (hk : tk.src.rest.length + bonus tk ≤ k) : next L R tk = next L R' tk :=
  nextToken_agree hR hA (by omega)

omit hn in
theorem expect_agree {ty : TokenType} {tk : Token} (ht : ty ≠ .eoi) (hk : tk.src.rest.length + bonus tk ≤ k) : expect L R ty tk = expect L R' ty tk := by
  refine ite_agree (fun h => ?_) fun _ => rfl
  exact next_agree hR hA (bonus_type fun e => ht (by rw [e] at h; exact (eq_of_beq h).symm)) hk

theorem newlinesLoop_agree (n n' : Nat) {tk : Token} (hk : tk.src.rest.length + bonus tk ≤ k) (h1 : tk.src.rest.length + bonus tk < n)
    (h2 : tk.src.rest.length + bonus tk < n') : newlinesLoop L R n tk = newlinesLoop L R' n' tk := by
  induction n generalizing n' tk with
  | zero => omega
  | succ n ih =>
    obtain ⟨n', rfl⟩ : ∃ m, n' = m + 1 := ⟨n' - 1, by omega⟩
    simp only [newlinesLoop]
    refine ite_agree (fun h => ?_) fun _ => rfl
    have hb : bonus tk = 1 := bonus_type fun e => by simp [e] at h
    refine bind_agree (next_agree hR hA hb hk) fun tk1 e1 => ?_
    have g1 := (next_fwd hn hR e1).1
    exact ih n' (by omega) (by omega) (by omega)

theorem newlines_agree {tk : Token} (hk : tk.src.rest.length + bonus tk ≤ k) : newlines L R tk = newlines L R' tk := by
  have := hA.fuel
  have := hA.fuel'
  exact newlinesLoop_agree hR hA hn _ _ hk (by omega) (by omega)

/-- At least one newline is skipped. -/
theorem newlines_fwd1 {tk tk1 : Token} (ht : tk.type = .newline) (h : newlines L R tk = some tk1) : TFwd1 tk tk1 := by
  have := hA.fuel
  obtain ⟨f, hf⟩ : ∃ f, R.fuel = f + 1 := ⟨R.fuel - 1, by omega⟩
  rw [newlines, hf, newlinesLoop, if_pos (by simp [ht])] at h
  simp only [Option.bind_eq_bind, Option.bind_eq_some_iff] at h
  obtain ⟨tk2, h1, h⟩ := h
  exact (next_fwd hn hR h1).trans (newlinesLoop_fwd hn hR _ h)

theorem wordsLoop_agree (skip : Bool) (n n' : Nat) {tk : Token} (hk : tk.src.rest.length + bonus tk ≤ k) (h1 : tk.src.rest.length + bonus tk < n)
    (h2 : tk.src.rest.length + bonus tk < n') : wordsLoop L R skip n tk = wordsLoop L R' skip n' tk := by
  induction n generalizing n' tk with
  | zero => omega
  | succ n ih =>
    obtain ⟨n', rfl⟩ : ∃ m, n' = m + 1 := ⟨n' - 1, by omega⟩
    simp only [wordsLoop]
    refine ite_agree (fun h => ?_) fun _ => ite_agree (fun _ => rfl) fun h => ?_
    · simp only [Bool.and_eq_true, beq_iff_eq] at h
      refine bind_agree (newlines_agree hR hA hn hk) fun tk1 e1 => ?_
      have g1 := (newlines_fwd1 hR hA hn h.2 e1).1
      have hb : bonus tk = 1 := bonus_type fun e => by simp [e] at h
      exact ih n' (by omega) (by omega) (by omega)
    · have hb : bonus tk = 1 := bonus_word (by simpa using h)
      refine bind_agree (next_agree hR hA hb hk) fun tk1 e1 => ?_
      have g1 := (next_fwd hn hR e1).1
      exact bind_agree (ih n' (by omega) (by omega) (by omega)) fun _ _ => rfl

theorem words_agree {skip : Bool} {tk : Token} (hk : tk.src.rest.length + bonus tk ≤ k) : words L R skip tk = words L R' skip tk := by
  have := hA.fuel
  have := hA.fuel'
  exact wordsLoop_agree hR hA hn _ _ _ hk (by omega) (by omega)

theorem redirBody_agree {fd : Nat} {tk : Token} (hk : tk.src.rest.length + bonus tk ≤ k) : redirBody L R fd tk = redirBody L R' fd tk := by
  unfold redirBody
  cases hf : fileRedirOf tk.type with
  | some ty =>
    have hb : bonus tk = 1 := bonus_type fun e => by simp [e, fileRedirOf] at hf
    refine bind_agree (next_agree hR hA hb hk) fun tk1 e1 => ?_
    have g1 := (next_fwd hn hR e1).1
    refine ite_agree (fun _ => rfl) fun h => ?_
    have hb1 : bonus tk1 = 1 := bonus_word (by simpa using h)
    exact bind_agree (next_agree hR hA hb1 (by omega)) fun _ _ => rfl
  | none =>
    refine ite_agree (fun h => ?_) fun _ => rfl
    have hb : bonus tk = 1 := bonus_type fun e => by simp [e] at h
    refine bind_agree (next_agree hR hA hb hk) fun tk1 e1 => ?_
    have g1 := (next_fwd hn hR e1).1
    refine bind_agree (hA.list _ (by omega)) ?_
    rintro ⟨l, tk2⟩ e2
    have g2 := (hR.list _ _ _ e2).1
    refine ite_agree (fun h => ?_) fun _ => rfl
    have hb2 : bonus tk2 = 1 := bonus_type fun e => by simp [e] at h
    exact bind_agree (next_agree hR hA hb2 (by omega)) fun _ _ => rfl

theorem tryRedirect_agree {tk : Token} (hk : tk.src.rest.length + bonus tk ≤ k) : tryRedirect L R tk = tryRedirect L R' tk := by
  refine ite_agree (fun h => ?_) fun _ => ite_agree (fun _ => ?_) fun _ => ite_agree (fun _ => ?_) fun _ => rfl
  · have hb : bonus tk = 1 := bonus_type fun e => by simp [e] at h
    refine bind_agree (next_agree hR hA hb hk) fun tk1 e1 => ?_
    have g1 := (next_fwd hn hR e1).1
    exact bind_agree (redirBody_agree hR hA hn (by omega)) fun _ _ => rfl
  · exact bind_agree (redirBody_agree hR hA hn hk) fun _ _ => rfl
  · exact bind_agree (redirBody_agree hR hA hn hk) fun _ _ => rfl

theorem redirsLoop_agree (n n' : Nat) {tk : Token} (hk : tk.src.rest.length + bonus tk ≤ k) (h1 : tk.src.rest.length + bonus tk < n)
    (h2 : tk.src.rest.length + bonus tk < n') : redirsLoop L R n tk = redirsLoop L R' n' tk := by
  induction n generalizing n' tk with
  | zero => omega
  | succ n ih =>
    obtain ⟨n', rfl⟩ : ∃ m, n' = m + 1 := ⟨n' - 1, by omega⟩
    simp only [redirsLoop]
    rw [← tryRedirect_agree hR hA hn hk]
    cases ht : tryRedirect L R tk with
    | none => rfl
    | some p =>
      obtain ⟨x, tk1⟩ := p
      cases x with
      | none => rfl
      | some r =>
        obtain ⟨g1, g2⟩ := (tryRedirect_fwd hn hR ht).2 (by simp)
        have g1 := g1.1
        exact bind_agree (ih n' (by omega) (by omega) (by omega)) fun _ _ => rfl

theorem redirs_agree {tk : Token} (hk : tk.src.rest.length + bonus tk ≤ k) : redirs L R tk = redirs L R' tk := by
  have := hA.fuel
  have := hA.fuel'
  exact redirsLoop_agree hR hA hn _ _ hk (by omega) (by omega)

theorem tryAssign_agree {tk : Token} (hk : tk.src.rest.length + bonus tk ≤ k) : tryAssign L R tk = tryAssign L R' tk := by
  unfold tryAssign
  cases hs : splitAssign L tk.word with
  | none => rfl
  | some p =>
    obtain ⟨name, w⟩ := p
    have hb := bonus_word (splitAssign_ne hn hR hs)
    refine bind_agree (next_agree hR hA hb hk) fun tk1 e1 => ?_
    have g1 := (next_fwd hn hR e1).1
    refine ite_agree (fun h => ?_) fun _ => rfl
    have hb1 : tk1.src.rest.length < k := by have := bonus_le tk1; omega
    refine bind_agree (nextToken_agree hR hA hb1) fun tk2 e2 => ?_
    have g2 := (next_fwd hn hR e2).1
    refine bind_agree (words_agree hR hA hn (by omega)) ?_
    rintro ⟨ws, tk3⟩ e3
    have g3 := (wordsLoop_fwd hn hR _ _ e3).1
    refine ite_agree (fun h => ?_) fun _ => rfl
    have hb3 : bonus tk3 = 1 := bonus_type fun e => by simp [e] at h
    exact bind_agree (next_agree hR hA hb3 (by omega)) fun _ _ => rfl

theorem simpleLoop_agree (n n' : Nat) {first : Bool} {tk : Token} (hk : tk.src.rest.length + bonus tk ≤ k)
    (h1 : tk.src.rest.length + bonus tk < n) (h2 : tk.src.rest.length + bonus tk < n') : simpleLoop L R n first tk = simpleLoop L R' n' first tk := by
  induction n generalizing n' first tk with
  | zero => omega
  | succ n ih =>
    obtain ⟨n', rfl⟩ : ∃ m, n' = m + 1 := ⟨n' - 1, by omega⟩
    simp only [simpleLoop]
    rw [← tryRedirect_agree hR hA hn hk]
    cases ht : tryRedirect L R tk with
    | none => rfl
    | some p =>
      obtain ⟨x, tk1⟩ := p
      cases x with
      | some r =>
        obtain ⟨g1, g2⟩ := (tryRedirect_fwd hn hR ht).2 (by simp)
        have g1 := g1.1
        exact bind_agree (ih n' (by omega) (by omega) (by omega)) fun _ _ => rfl
      | none =>
        have := (tryRedirect_fwd hn hR ht).1 rfl
        subst this
        simp only
        have hta : ∀ x tk2, (if first = true then tryAssign L R tk1 else some (none, tk1)) = some (x, tk2) →
            (x = none → tk2 = tk1) ∧ (x ≠ none → TFwd1 tk1 tk2 ∧ bonus tk1 = 1) := by
          intro x tk2 hx
          cases first
          · cases hx
            exact ⟨fun _ => rfl, by simp⟩
          · exact tryAssign_fwd hn hR hx
        rw [← tryAssign_agree hR hA hn hk]
        cases ha : (if first = true then tryAssign L R tk1 else some (none, tk1)) with
        | none => rfl
        | some p =>
          obtain ⟨x, tk2⟩ := p
          cases x with
          | some a =>
            obtain ⟨g1, g2⟩ := (hta _ _ ha).2 (by simp)
            have g1 := g1.1
            exact bind_agree (ih n' (by omega) (by omega) (by omega)) fun _ _ => rfl
          | none =>
            have := (hta _ _ ha).1 rfl
            subst this
            refine ite_agree (fun _ => rfl) fun h => ?_
            have hb : bonus tk2 = 1 := bonus_word (by simpa using h)
            refine bind_agree (next_agree hR hA hb hk) fun tk3 e1 => ?_
            have g1 := (next_fwd hn hR e1).1
            exact bind_agree (ih n' (by omega) (by omega) (by omega)) fun _ _ => rfl

/-! ## Compound commands -/

theorem group_agree {tk : Token} (hb : bonus tk = 1) (hk : tk.src.rest.length + bonus tk ≤ k) : group L R tk = group L R' tk := by
  refine bind_agree (next_agree hR hA hb hk) fun tk1 e1 => ?_
  have g1 := (next_fwd hn hR e1).1
  refine bind_agree (hA.list _ (by omega)) ?_
  rintro ⟨l, tk2⟩ e2
  have g2 := (hR.list _ _ _ e2).1
  refine ite_agree (fun _ => ?_) fun _ => ?_
  · exact bind_agree (expect_agree hR hA (by simp) (by omega)) fun _ _ => rfl
  · exact bind_agree (expect_agree hR hA (by simp) (by omega)) fun _ _ => rfl

theorem ifLoop_agree (n n' : Nat) {tk : Token} (hk : tk.src.rest.length + bonus tk < k)
    (h1 : tk.src.rest.length + bonus tk < n) (h2 : tk.src.rest.length + bonus tk < n') : ifLoop L R n tk = ifLoop L R' n' tk := by
  induction n generalizing n' tk with
  | zero => omega
  | succ n ih =>
    obtain ⟨n', rfl⟩ : ∃ m, n' = m + 1 := ⟨n' - 1, by omega⟩
    rw [ifLoop, ifLoop]
    refine bind_agree (hA.list _ hk) ?_
    rintro ⟨c, tk1⟩ e1
    have g1 := (hR.list _ _ _ e1).1
    refine bind_agree (expect_agree hR hA (by simp) (by omega)) fun tk2 e2 => ?_
    have g2 := (expect_fwd hn hR e2).1
    refine bind_agree (hA.list _ (by omega)) ?_
    rintro ⟨b, tk3⟩ e3
    have g3 := (hR.list _ _ _ e3).1
    refine ite_agree (fun h => ?_) fun _ => ite_agree (fun h => ?_) fun _ => ?_
    · have hb : bonus tk3 = 1 := bonus_type fun e => by simp [e] at h
      refine bind_agree (next_agree hR hA hb (by omega)) fun tk4 e4 => ?_
      have g4 := (next_fwd hn hR e4).1
      refine bind_agree (hA.list _ (by omega)) ?_
      rintro ⟨e, tk5⟩ e5
      have g5 := (hR.list _ _ _ e5).1
      exact bind_agree (expect_agree hR hA (by simp) (by omega)) fun _ _ => rfl
    · have hb : bonus tk3 = 1 := bonus_type fun e => by simp [e] at h
      refine bind_agree (next_agree hR hA hb (by omega)) fun tk4 e4 => ?_
      have g4 := (next_fwd hn hR e4).1
      exact bind_agree (ih n' (by omega) (by omega) (by omega)) fun _ _ => rfl
    · exact bind_agree (expect_agree hR hA (by simp) (by omega)) fun _ _ => rfl

theorem ifCommand_agree {tk : Token} (hb : bonus tk = 1) (hk : tk.src.rest.length + bonus tk ≤ k) : ifCommand L R tk = ifCommand L R' tk := by
  refine bind_agree (next_agree hR hA hb hk) fun tk1 e1 => ?_
  have g1 := (next_fwd hn hR e1).1
  have := hA.fuel
  have := hA.fuel'
  exact bind_agree (ifLoop_agree hR hA hn _ _ (by omega) (by omega) (by omega)) fun _ _ => rfl

theorem forWords_agree {late : Bool} {tk : Token} (hk : tk.src.rest.length + bonus tk ≤ k) : forWords L R late tk = forWords L R' late tk := by
  refine ite_agree (fun h => ?_) fun _ => ite_agree (fun h => ite_agree (fun _ => rfl) fun _ => ?_) fun _ => rfl
  · have hb : bonus tk = 1 := bonus_type fun e => by simp [e] at h
    refine bind_agree (next_agree hR hA hb hk) fun tk1 e1 => ?_
    have g1 := (next_fwd hn hR e1).1
    refine bind_agree (words_agree hR hA hn (by omega)) ?_
    rintro ⟨ws, tk2⟩ e2
    have g2 := (wordsLoop_fwd hn hR _ _ e2).1
    refine ite_agree (fun h => ?_) fun _ => rfl
    have hb : bonus tk2 = 1 := bonus_type fun e => by simp [e] at h
    exact bind_agree (next_agree hR hA hb (by omega)) fun _ _ => rfl
  · have hb : bonus tk = 1 := bonus_type fun e => by simp [e] at h
    exact bind_agree (next_agree hR hA hb hk) fun _ _ => rfl

omit hA hR hn in
theorem isNameWord_ne {w : Word} (h : isNameWord L w = true) : w ≠ [] := by
  rintro rfl
  simp [isNameWord, singleString] at h

theorem forCommand_agree {tk : Token} (hb : bonus tk = 1) (hk : tk.src.rest.length + bonus tk ≤ k) : forCommand L R tk = forCommand L R' tk := by
  refine bind_agree (next_agree hR hA hb hk) fun tk1 e1 => ?_
  have g1 := (next_fwd hn hR e1).1
  refine ite_agree (fun h => ?_) fun _ => rfl
  have hb1 : bonus tk1 = 1 := bonus_word (isNameWord_ne h)
  refine bind_agree (next_agree hR hA hb1 (by omega)) fun tk2 e2 => ?_
  have g2 := (next_fwd hn hR e2).1
  refine bind_agree (newlines_agree hR hA hn (by omega)) fun tk3 e3 => ?_
  have g3 := (newlines_fwd hn hR e3).1
  refine bind_agree (forWords_agree hR hA hn (by omega)) ?_
  rintro ⟨ws, tk4⟩ e4
  have g4 := (forWords_fwd hn hR e4).1
  refine bind_agree (newlines_agree hR hA hn (by omega)) fun tk5 e5 => ?_
  have g5 := (newlines_fwd hn hR e5).1
  refine bind_agree (expect_agree hR hA (by simp) (by omega)) fun tk6 e6 => ?_
  have g6 := (expect_fwd hn hR e6).1
  refine bind_agree (hA.list _ (by omega)) ?_
  rintro ⟨l, tk7⟩ e7
  have g7 := (hR.list _ _ _ e7).1
  exact bind_agree (expect_agree hR hA (by simp) (by omega)) fun _ _ => rfl

theorem whileCommand_agree {tk : Token} (hb : bonus tk = 1) (hk : tk.src.rest.length + bonus tk ≤ k) : whileCommand L R tk = whileCommand L R' tk := by
  refine bind_agree (next_agree hR hA hb hk) fun tk1 e1 => ?_
  have g1 := (next_fwd hn hR e1).1
  refine bind_agree (hA.list _ (by omega)) ?_
  rintro ⟨c, tk2⟩ e2
  have g2 := (hR.list _ _ _ e2).1
  refine bind_agree (expect_agree hR hA (by simp) (by omega)) fun tk3 e3 => ?_
  have g3 := (expect_fwd hn hR e3).1
  refine bind_agree (hA.list _ (by omega)) ?_
  rintro ⟨l, tk4⟩ e4
  have g4 := (hR.list _ _ _ e4).1
  exact bind_agree (expect_agree hR hA (by simp) (by omega)) fun _ _ => rfl

theorem patternsLoop_agree (n n' : Nat) {tk : Token} (hk : tk.src.rest.length + bonus tk ≤ k)
    (h1 : tk.src.rest.length + bonus tk < n) (h2 : tk.src.rest.length + bonus tk < n') : patternsLoop L R n tk = patternsLoop L R' n' tk := by
  induction n generalizing n' tk with
  | zero => omega
  | succ n ih =>
    obtain ⟨n', rfl⟩ : ∃ m, n' = m + 1 := ⟨n' - 1, by omega⟩
    simp only [patternsLoop]
    refine ite_agree (fun _ => rfl) fun h => ?_
    have hb : bonus tk = 1 := bonus_word (by simpa using h)
    refine bind_agree (next_agree hR hA hb hk) fun tk1 e1 => ?_
    have g1 := (next_fwd hn hR e1).1
    refine ite_agree (fun h => ?_) fun _ => ?_
    · have hb1 : bonus tk1 = 1 := bonus_type fun e => by simp [e] at h
      refine bind_agree (next_agree hR hA hb1 (by omega)) fun tk2 e2 => ?_
      have g2 := (next_fwd hn hR e2).1
      exact bind_agree (ih n' (by omega) (by omega) (by omega)) fun _ _ => rfl
    · exact bind_agree (expect_agree hR hA (by simp) (by omega)) fun _ _ => rfl

theorem patterns_agree {tk : Token} (hk : tk.src.rest.length + bonus tk ≤ k) : patterns L R tk = patterns L R' tk := by
  have := hA.fuel
  have := hA.fuel'
  refine ite_agree (fun h => ?_) fun _ => patternsLoop_agree hR hA hn _ _ hk (by omega) (by omega)
  have hb : bonus tk = 1 := bonus_type fun e => by simp [e] at h
  refine bind_agree (next_agree hR hA hb (by omega)) fun tk1 e1 => ?_
  have g1 := (next_fwd hn hR e1).1
  exact patternsLoop_agree hR hA hn _ _ (by omega) (by omega) (by omega)

theorem caseLoop_agree (n n' : Nat) {tk : Token} (hk : tk.src.rest.length + bonus tk ≤ k)
    (h1 : tk.src.rest.length + bonus tk < n) (h2 : tk.src.rest.length + bonus tk < n') : caseLoop L R n tk = caseLoop L R' n' tk := by
  induction n generalizing n' tk with
  | zero => omega
  | succ n ih =>
    obtain ⟨n', rfl⟩ : ∃ m, n' = m + 1 := ⟨n' - 1, by omega⟩
    rw [caseLoop, caseLoop]
    refine bind_agree (newlines_agree hR hA hn hk) fun tk1 e1 => ?_
    have g1 := (newlines_fwd hn hR e1).1
    refine ite_agree (fun _ => rfl) fun _ => ?_
    refine bind_agree (patterns_agree hR hA hn (by omega)) ?_
    rintro ⟨ps, tk2⟩ e2
    obtain ⟨⟨g2, -⟩, g2'⟩ := patterns_fwd hn hR e2
    refine bind_agree (hA.list _ (by omega)) ?_
    rintro ⟨l, tk3⟩ e3
    have g3 := (hR.list _ _ _ e3).1
    refine ite_agree (fun h => ?_) fun _ => rfl
    have hb : bonus tk3 = 1 := bonus_type fun e => by simp [e] at h
    refine bind_agree (next_agree hR hA hb (by omega)) fun tk4 e4 => ?_
    have g4 := (next_fwd hn hR e4).1
    exact bind_agree (ih n' (by omega) (by omega) (by omega)) fun _ _ => rfl

theorem caseCommand_agree {tk : Token} (hb : bonus tk = 1) (hk : tk.src.rest.length + bonus tk ≤ k) : caseCommand L R tk = caseCommand L R' tk := by
  refine bind_agree (next_agree hR hA hb hk) fun tk1 e1 => ?_
  have g1 := (next_fwd hn hR e1).1
  refine ite_agree (fun _ => rfl) fun h => ?_
  have hb1 : bonus tk1 = 1 := bonus_word (by simpa using h)
  refine bind_agree (next_agree hR hA hb1 (by omega)) fun tk2 e2 => ?_
  have g2 := (next_fwd hn hR e2).1
  refine bind_agree (newlines_agree hR hA hn (by omega)) fun tk3 e3 => ?_
  have g3 := (newlines_fwd hn hR e3).1
  refine bind_agree (expect_agree hR hA (by simp) (by omega)) fun tk4 e4 => ?_
  have g4 := (expect_fwd hn hR e4).1
  have := hA.fuel
  have := hA.fuel'
  refine bind_agree (caseLoop_agree hR hA hn _ _ (by omega) (by omega) (by omega)) ?_
  rintro ⟨cs, tk5⟩ e5
  have g5 := (caseLoop_fwd hn hR _ e5).1
  exact bind_agree (expect_agree hR hA (by simp) (by omega)) fun _ _ => rfl

/-! ## The double bracket command -/

omit hn in
theorem operand_agree {tk : Token} (hk : tk.src.rest.length + bonus tk ≤ k) : operand L R tk = operand L R' tk := by
  refine ite_agree (fun _ => rfl) fun h => ?_
  simp at h
  exact bind_agree (next_agree hR hA (bonus_word h.2) hk) fun _ _ => rfl

omit hn in
theorem regexLoop_agree (n n' : Nat) {nest : Nat} {acc : List Char} {st : Src}
    (hk : st.rest.length < k) (h1 : st.rest.length < n) (h2 : st.rest.length < n') :
    regexLoop L R n nest acc st = regexLoop L R' n' nest acc st := by
  induction n generalizing n' nest acc st with
  | zero => omega
  | succ n ih =>
    obtain ⟨n', rfl⟩ : ∃ m, n' = m + 1 := ⟨n' - 1, by omega⟩
    obtain ⟨b, r⟩ := st
    simp only at hk h1 h2
    simp only [regexLoop]
    cases hl : lineCont r with
    | nil => rfl
    | cons c r1 =>
      have hlen := of_lineCont hl
      simp only [List.length_cons] at hlen
      refine ite_agree (fun _ => ?_) fun _ => ite_agree (fun _ => ?_) fun _ => ite_agree (fun _ => ?_) fun _ => ite_agree (fun _ => ?_) fun _ => ite_agree (fun _ => ?_) fun _ => rfl
      · cases r1 with
        | nil => rfl
        | cons d r2 =>
          simp only [List.length_cons] at hlen
          exact ih _ (by simp only; omega) (by simp only; omega) (by simp only; omega)
      · rw [← hA.special false ⟨b, c :: r1⟩ (by simp only [List.length_cons]; omega)]
        cases hsp : R.special false ⟨b, c :: r1⟩ with
        | none => rfl
        | some p =>
          obtain ⟨u, b2, r2⟩ := p
          obtain ⟨g1, g2⟩ := hR.special _ _ _ _ hsp
          cases u with
          | some u =>
            have g2 := (g2 (by simp)).1
            simp only [List.length_cons] at g2
            exact bind_agree (ih n' (by simp only; omega) (by simp only; omega) (by simp only; omega)) fun _ _ => rfl
          | none =>
            have g1 := g1.1
            cases r2 with
            | nil => rfl
            | cons d r3 =>
              simp only [List.length_cons] at g1
              exact bind_agree (ih n' (by simp only; omega) (by simp only; omega) (by simp only; omega)) fun _ _ => rfl
      · exact ih _ (by simp only; omega) (by simp only; omega) (by simp only; omega)
      · cases nest with
        | zero => rfl
        | succ nest => exact ih _ (by simp only; omega) (by simp only; omega) (by simp only; omega)
      · exact ih _ (by simp only; omega) (by simp only; omega) (by simp only; omega)

theorem regexOperand_agree {tk0 tk : Token} (h0 : next L R tk0 = some tk) (hk : tk0.src.rest.length < k) : regexOperand L R tk = regexOperand L R' tk := by
  obtain ⟨k1, k2, k3⟩ := nextToken_after hn hR.special h0
  have := hA.fuel
  have := hA.fuel'
  have hb := bonus_le tk
  refine ite_agree (fun _ => ite_agree (fun h => ?_) fun _ => rfl) fun h => ?_
  · simp at h
    obtain ⟨k4, k5⟩ := k3 (by rcases h with (h | h) | h <;> simp [h])
    refine bind_agree (regexLoop_agree hR hA _ _ ?_ ?_ ?_) ?_
    · simp only [List.length_append]; omega
    · simp only [List.length_append]; omega
    · simp only [List.length_append]; omega
    · rintro ⟨w, st⟩ e1
      have g1 := (regexLoop_fwd hR _ e1).1
      simp only [List.length_append] at g1
      refine operand_agree hR hA ?_
      rw [bonus_type (by simp)]
      simp only
      omega
  · refine bind_agree (regexLoop_agree hR hA _ _ (by omega) (by omega) (by omega)) ?_
    rintro ⟨w, st⟩ e1
    have g1 := (regexLoop_fwd hR _ e1).1
    refine operand_agree hR hA ?_
    rw [bonus_type (by simp)]
    simp only
    omega

omit hA hR hn in
theorem binaryOf_bonus {tk : Token} {op : List Char} (h : binaryOf tk = some op) : bonus tk = 1 := by
  unfold binaryOf at h
  split at h
  · rename_i ht
    exact bonus_type fun e => by simp [e] at ht
  · exact bonus_word fun e => by simp [e, singleString] at h

theorem primary_agree {tk : Token} (hk : tk.src.rest.length + bonus tk ≤ k) : primary L R tk = primary L R' tk := by
  refine ite_agree (fun h => ?_) fun _ => ?_
  · have hb : bonus tk = 1 := bonus_type fun e => by simp [e] at h
    refine bind_agree (next_agree hR hA hb (by omega)) fun tk1 e1 => ?_
    have g1 := (next_fwd hn hR e1).1
    refine bind_agree (hA.ors _ (by omega)) ?_
    rintro ⟨e, tk2⟩ e2
    have g2 := (hR.ors _ _ _ e2).1
    exact bind_agree (expect_agree hR hA (by simp) (by omega)) fun _ _ => rfl
  · cases hu : unaryOf tk.word with
    | some op =>
      have hb : bonus tk = 1 := bonus_word fun e => by simp [e, unaryOf, singleString] at hu
      refine bind_agree (next_agree hR hA hb (by omega)) fun tk1 e1 => ?_
      have g1 := (next_fwd hn hR e1).1
      exact bind_agree (operand_agree hR hA (by omega)) fun _ _ => rfl
    | none =>
      refine bind_agree (operand_agree hR hA (by omega)) ?_
      rintro ⟨l, tk1⟩ e1
      have g1 := (operand_fwd hn hR e1).1.1
      simp only
      cases hbo : binaryOf tk1 with
      | none => rfl
      | some op =>
        have hb := binaryOf_bonus hbo
        refine bind_agree (next_agree hR hA hb (by omega)) fun tk2 e2 => ?_
        have g2 := (next_fwd hn hR e2).1
        refine ite_agree (fun _ => ?_) fun _ => ?_
        · exact bind_agree (regexOperand_agree hR hA hn e2 (by omega)) fun _ _ => rfl
        · exact bind_agree (operand_agree hR hA (by omega)) fun _ _ => rfl

theorem notsLoop_agree (n n' : Nat) {tk : Token} (hk : tk.src.rest.length + bonus tk ≤ k)
    (h1 : tk.src.rest.length + bonus tk < n) (h2 : tk.src.rest.length + bonus tk < n') : notsLoop L R n tk = notsLoop L R' n' tk := by
  induction n generalizing n' tk with
  | zero => omega
  | succ n ih =>
    obtain ⟨n', rfl⟩ : ∃ m, n' = m + 1 := ⟨n' - 1, by omega⟩
    simp only [notsLoop]
    refine ite_agree (fun h => ?_) fun _ => primary_agree hR hA hn hk
    have hb : bonus tk = 1 := bonus_type fun e => by simp [e] at h
    refine bind_agree (next_agree hR hA hb (by omega)) fun tk1 e1 => ?_
    have g1 := (next_fwd hn hR e1).1
    exact bind_agree (ih n' (by omega) (by omega) (by omega)) fun _ _ => rfl

theorem andsLoop_agree (n n' : Nat) {tk : Token} (hk : tk.src.rest.length + bonus tk ≤ k)
    (h1 : tk.src.rest.length + bonus tk < n) (h2 : tk.src.rest.length + bonus tk < n') : andsLoop L R n tk = andsLoop L R' n' tk := by
  have := hA.fuel
  have := hA.fuel'
  induction n generalizing n' tk with
  | zero => omega
  | succ n ih =>
    obtain ⟨n', rfl⟩ : ∃ m, n' = m + 1 := ⟨n' - 1, by omega⟩
    rw [andsLoop, andsLoop]
    refine bind_agree (notsLoop_agree hR hA hn _ _ hk (by omega) (by omega)) ?_
    rintro ⟨l, tk1⟩ e1
    have g1 := (notsLoop_fwd hn hR _ e1).1.1
    refine ite_agree (fun h => ?_) fun _ => rfl
    have hb : bonus tk1 = 1 := bonus_type fun e => by simp [e] at h
    refine bind_agree (next_agree hR hA hb (by omega)) fun tk2 e2 => ?_
    have g2 := (next_fwd hn hR e2).1
    exact bind_agree (ih n' (by omega) (by omega) (by omega)) fun _ _ => rfl

theorem orsLoop_agree (n n' : Nat) {tk : Token} (hk : tk.src.rest.length + bonus tk ≤ k)
    (h1 : tk.src.rest.length + bonus tk < n) (h2 : tk.src.rest.length + bonus tk < n') : orsLoop L R n tk = orsLoop L R' n' tk := by
  have := hA.fuel
  have := hA.fuel'
  induction n generalizing n' tk with
  | zero => omega
  | succ n ih =>
    obtain ⟨n', rfl⟩ : ∃ m, n' = m + 1 := ⟨n' - 1, by omega⟩
    rw [orsLoop, orsLoop]
    refine bind_agree (andsLoop_agree hR hA hn _ _ hk (by omega) (by omega)) ?_
    rintro ⟨l, tk1⟩ e1
    have g1 := (andsLoop_fwd hn hR _ e1).1.1
    refine ite_agree (fun h => ?_) fun _ => rfl
    have hb : bonus tk1 = 1 := bonus_type fun e => by simp [e] at h
    refine bind_agree (next_agree hR hA hb (by omega)) fun tk2 e2 => ?_
    have g2 := (next_fwd hn hR e2).1
    exact bind_agree (ih n' (by omega) (by omega) (by omega)) fun _ _ => rfl

theorem bracket_agree {tk : Token} (hb : bonus tk = 1) (hk : tk.src.rest.length + bonus tk ≤ k) : bracket L R tk = bracket L R' tk := by
  have := hA.fuel
  have := hA.fuel'
  refine bind_agree (next_agree hR hA hb hk) fun tk1 e1 => ?_
  have g1 := (next_fwd hn hR e1).1
  refine bind_agree (orsLoop_agree hR hA hn _ _ (by omega) (by omega) (by omega)) ?_
  rintro ⟨e, tk2⟩ e2
  have g2 := (orsLoop_fwd hn hR _ e2).1.1
  refine ite_agree (fun h => ?_) fun _ => rfl
  have hb : bonus tk2 = 1 := bonus_word fun e => by simp [e, isDoubleRbracket, singleString] at h
  exact bind_agree (next_agree hR hA hb (by omega)) fun _ _ => rfl

/-! ## Functions, pipelines and lists -/

theorem functionBody_agree {name : Word} {tk : Token} (hk : tk.src.rest.length + bonus tk < k) : functionBody L R name tk = functionBody L R' name tk := by
  refine bind_agree (newlines_agree hR hA hn (by omega)) fun tk1 e1 => ?_
  have g1 := (newlines_fwd hn hR e1).1
  rw [hA.compound _ (by omega)]

theorem function_agree {tk : Token} (hb : bonus tk = 1) (hk : tk.src.rest.length + bonus tk ≤ k) : function L R tk = function L R' tk := by
  refine bind_agree (next_agree hR hA hb hk) fun tk1 e1 => ?_
  have g1 := (next_fwd hn hR e1).1
  refine ite_agree (fun _ => rfl) fun h => ?_
  have hb1 : bonus tk1 = 1 := bonus_word (by simpa using h)
  refine bind_agree (next_agree hR hA hb1 (by omega)) fun tk2 e2 => ?_
  have g2 := (next_fwd hn hR e2).1
  refine ite_agree (fun h => ?_) fun _ => functionBody_agree hR hA hn (by omega)
  have hb2 : bonus tk2 = 1 := bonus_type fun e => by simp [e] at h
  refine bind_agree (next_agree hR hA hb2 (by omega)) fun tk3 e3 => ?_
  have g3 := (next_fwd hn hR e3).1
  refine ite_agree (fun h => ?_) fun _ => functionBody_agree hR hA hn (by omega)
  have hb3 : bonus tk3 = 1 := bonus_type fun e => by simp [e] at h
  refine bind_agree (next_agree hR hA hb3 (by omega)) fun tk4 e4 => ?_
  have g4 := (next_fwd hn hR e4).1
  exact functionBody_agree hR hA hn (by omega)

theorem compoundHead_agree {tk : Token} (hk : tk.src.rest.length + bonus tk ≤ k) : compoundHead L R tk = compoundHead L R' tk := by
  unfold compoundHead
  split
  case h_10 => rfl
  all_goals
    rename_i ht
    have hb : bonus tk = 1 := bonus_type fun e => by rw [e] at ht; cases ht
    first
      | rw [group_agree hR hA hn hb hk]
      | rw [ifCommand_agree hR hA hn hb hk]
      | rw [forCommand_agree hR hA hn hb hk]
      | rw [function_agree hR hA hn hb hk]
      | rw [whileCommand_agree hR hA hn hb hk]
      | rw [caseCommand_agree hR hA hn hb hk]
      | rw [bracket_agree hR hA hn hb hk]

theorem compound_agree {tk : Token} (hk : tk.src.rest.length + bonus tk ≤ k) : compound L R tk = compound L R' tk := by
  unfold compound
  rw [← compoundHead_agree hR hA hn hk]
  cases hc : compoundHead L R tk with
  | none => rfl
  | some p =>
    cases p with
    | none => rfl
    | some p =>
      obtain ⟨c, tk1⟩ := p
      have g1 := (compoundHead_fwd hn hR hc).1.1
      exact bind_agree (redirs_agree hR hA hn (by omega)) fun _ _ => rfl

theorem tryFunction_agree {s : Simple} {tk : Token} (hk : tk.src.rest.length + bonus tk < k) : tryFunction L R s tk = tryFunction L R' s tk := by
  refine ite_agree (fun h => ?_) fun _ => rfl
  split
  · refine ite_agree (fun _ => ?_) fun _ => rfl
    have hb : bonus tk = 1 := bonus_type fun e => by simp [e] at h
    refine bind_agree (next_agree hR hA hb (by omega)) fun tk1 e1 => ?_
    have g1 := (next_fwd hn hR e1).1
    refine bind_agree (expect_agree hR hA (by simp) (by omega)) fun tk2 e2 => ?_
    have g2 := (expect_fwd hn hR e2).1
    exact functionBody_agree hR hA hn (by omega)
  · rfl

theorem command_agree {tk : Token} (hk : tk.src.rest.length + bonus tk ≤ k) : command L R tk = command L R' tk := by
  refine ite_agree (fun _ => rfl) fun _ => ?_
  rw [← compound_agree hR hA hn hk]
  cases hc : compound L R tk with
  | none => rfl
  | some p =>
    obtain ⟨c, tk1⟩ := p
    cases c with
    | some c => rfl
    | none =>
      have := (compound_fwd hn hR hc).1 rfl
      subst this
      have := hA.fuel
      have := hA.fuel'
      refine bind_agree (simpleLoop_agree hR hA hn _ _ hk (by omega) (by omega)) ?_
      rintro ⟨S, tk2⟩ e1
      refine ite_agree (fun _ => rfl) fun h => ?_
      obtain ⟨⟨g1, -⟩, g2⟩ := (simpleLoop_fwd hn hR _ e1).2 (by simpa [and_assoc] using h)
      exact tryFunction_agree hR hA hn (by omega)

theorem commandsLoop_agree (n n' : Nat) {tk : Token} (hk : tk.src.rest.length + bonus tk ≤ k)
    (h1 : tk.src.rest.length + bonus tk < n) (h2 : tk.src.rest.length + bonus tk < n') : commandsLoop L R n tk = commandsLoop L R' n' tk := by
  induction n generalizing n' tk with
  | zero => omega
  | succ n ih =>
    obtain ⟨n', rfl⟩ : ∃ m, n' = m + 1 := ⟨n' - 1, by omega⟩
    rw [commandsLoop, commandsLoop]
    refine bind_agree (command_agree hR hA hn hk) ?_
    rintro ⟨c, tk1⟩ e1
    have g1 := (command_fwd hn hR e1).1.1
    refine ite_agree (fun h => ?_) fun _ => rfl
    have hb : bonus tk1 = 1 := bonus_type fun e => by simp [e] at h
    refine bind_agree (next_agree hR hA hb (by omega)) fun tk2 e2 => ?_
    have g2 := (next_fwd hn hR e2).1
    refine bind_agree (newlines_agree hR hA hn (by omega)) fun tk3 e3 => ?_
    have g3 := (newlines_fwd hn hR e3).1
    exact bind_agree (ih n' (by omega) (by omega) (by omega)) fun _ _ => rfl

theorem pipeline_agree {cond : Bool} {tk : Token} (hk : tk.src.rest.length + bonus tk ≤ k) : pipeline L R cond tk = pipeline L R' cond tk := by
  have := hA.fuel
  have := hA.fuel'
  refine ite_agree (fun h => ?_) fun _ => ?_
  · have hb : bonus tk = 1 := bonus_type fun e => by simp [e] at h
    refine bind_agree (next_agree hR hA hb (by omega)) fun tk1 e1 => ?_
    have g1 := (next_fwd hn hR e1).1
    exact bind_agree (commandsLoop_agree hR hA hn _ _ (by omega) (by omega) (by omega)) fun _ _ => rfl
  · exact bind_agree (commandsLoop_agree hR hA hn _ _ (by omega) (by omega) (by omega)) fun _ _ => rfl

theorem pipelinesLoop_agree (n n' : Nat) {cond : Bool} {tk : Token} (hk : tk.src.rest.length + bonus tk ≤ k)
    (h1 : tk.src.rest.length + bonus tk < n) (h2 : tk.src.rest.length + bonus tk < n') :
    pipelinesLoop L R n cond tk = pipelinesLoop L R' n' cond tk := by
  induction n generalizing n' cond tk with
  | zero => omega
  | succ n ih =>
    obtain ⟨n', rfl⟩ : ∃ m, n' = m + 1 := ⟨n' - 1, by omega⟩
    rw [pipelinesLoop, pipelinesLoop]
    refine bind_agree (pipeline_agree hR hA hn hk) ?_
    rintro ⟨c, tk1⟩ e1
    have g1 := (pipeline_fwd hn hR e1).1.1
    refine ite_agree (fun h => ?_) fun _ => rfl
    have hb : bonus tk1 = 1 := bonus_type fun e => by simp [e] at h
    refine bind_agree (next_agree hR hA hb (by omega)) fun tk2 e2 => ?_
    have g2 := (next_fwd hn hR e2).1
    refine bind_agree (newlines_agree hR hA hn (by omega)) fun tk3 e3 => ?_
    have g3 := (newlines_fwd hn hR e3).1
    exact bind_agree (ih n' (by omega) (by omega) (by omega)) fun _ _ => rfl

theorem andOr_agree {tk : Token} (hk : tk.src.rest.length + bonus tk ≤ k) : andOr L R tk = andOr L R' tk := by
  have := hA.fuel
  have := hA.fuel'
  exact bind_agree (pipelinesLoop_agree hR hA hn _ _ (by omega) (by omega) (by omega)) fun _ _ => rfl

omit hn in
theorem separator_agree {tk : Token} (hk : tk.src.rest.length + bonus tk ≤ k) : separator L R tk = separator L R' tk := by
  refine ite_agree (fun h => ?_) fun _ => rfl
  have hb : bonus tk = 1 := bonus_type fun e => by simp [e] at h
  exact bind_agree (next_agree hR hA hb (by omega)) fun _ _ => rfl

theorem listLoop_agree (n n' : Nat) {need : Bool} {tk : Token} (hk : tk.src.rest.length + bonus tk ≤ k)
    (h1 : tk.src.rest.length + bonus tk < n) (h2 : tk.src.rest.length + bonus tk < n') :
    listLoop L R n need tk = listLoop L R' n' need tk := by
  induction n generalizing n' need tk with
  | zero => omega
  | succ n ih =>
    obtain ⟨n', rfl⟩ : ∃ m, n' = m + 1 := ⟨n' - 1, by omega⟩
    rw [listLoop, listLoop]
    refine bind_agree (newlines_agree hR hA hn hk) fun tk1 e1 => ?_
    have g1 := (newlines_fwd hn hR e1).1
    refine ite_agree (fun _ => rfl) fun _ => ?_
    refine bind_agree (andOr_agree hR hA hn (by omega)) ?_
    rintro ⟨a, tk2⟩ e2
    obtain ⟨⟨g2, -⟩, g2'⟩ := andOr_fwd hn hR e2
    refine bind_agree (separator_agree hR hA (by omega)) ?_
    rintro ⟨need', tk3⟩ e3
    have g3 := (separator_fwd hn hR e3).1
    exact bind_agree (ih n' (by omega) (by omega) (by omega)) fun _ _ => rfl

theorem lineLoop_agree (n n' : Nat) {need : Bool} {tk : Token} (hk : tk.src.rest.length + bonus tk ≤ k)
    (h1 : tk.src.rest.length + bonus tk < n) (h2 : tk.src.rest.length + bonus tk < n') :
    lineLoop L R n need tk = lineLoop L R' n' need tk := by
  induction n generalizing n' need tk with
  | zero => omega
  | succ n ih =>
    obtain ⟨n', rfl⟩ : ∃ m, n' = m + 1 := ⟨n' - 1, by omega⟩
    rw [lineLoop, lineLoop]
    refine ite_agree (fun _ => rfl) fun _ => ite_agree (fun _ => rfl) fun _ => ?_
    refine bind_agree (andOr_agree hR hA hn (by omega)) ?_
    rintro ⟨a, tk2⟩ e2
    obtain ⟨⟨g2, -⟩, g2'⟩ := andOr_fwd hn hR e2
    refine bind_agree (separator_agree hR hA (by omega)) ?_
    rintro ⟨need', tk3⟩ e3
    have g3 := (separator_fwd hn hR e3).1
    exact bind_agree (ih n' (by omega) (by omega) (by omega)) fun _ _ => rfl

theorem step_agree : Agree (k + 1) (step L R) (step L R') where
  fuel := Nat.succ_lt_succ hA.fuel
  fuel' := Nat.succ_lt_succ hA.fuel'
  special _ _ h := special_agree hR hA hn (by omega)
  brace _ h := brace_agree hR hA (by omega)
  list _ h := listLoop_agree hR hA hn _ _ (by omega) (by have := hA.fuel; omega) (by have := hA.fuel'; omega)
  compound _ h := compound_agree hR hA hn (by omega)
  ors _ h := orsLoop_agree hR hA hn _ _ (by omega) (by have := hA.fuel; omega) (by have := hA.fuel'; omega)

end

theorem parser_agree (hn : L.blank '\n' = false) (k : Nat) {n n' : Nat} (h : k < n) (h' : k < n') : Agree k (parser L n) (parser L n') := by
  induction k generalizing n n' with
  | zero =>
    refine ⟨by rw [parser_fuel]; exact h, by rw [parser_fuel]; exact h', ?_, ?_, ?_, ?_, ?_⟩ <;> intros <;> omega
  | succ k ih =>
    obtain ⟨m, rfl⟩ : ∃ m, n = m + 1 := ⟨n - 1, by omega⟩
    obtain ⟨m', rfl⟩ : ∃ m, n' = m + 1 := ⟨n' - 1, by omega⟩
    exact step_agree (parser_prog hn m) (ih (by omega) (by omega)) hn

/-- The result does not depend on the bound, if it is large enough. -/
theorem parseLineN_agree (hn : L.blank '\n' = false) (s : List Char) {n n' : Nat} (h : s.length + 1 < n) (h' : s.length + 1 < n') :
    parseLineN L n s = parseLineN L n' s := by
  have hR := parser_prog hn n
  have hA := parser_agree hn (s.length + 1) h h'
  refine bind_agree (nextToken_agree hR hA (by simp)) fun tk e => ?_
  have g := (nextToken_after hn hR.special e).size
  simp only at g
  exact bind_agree (lineLoop_agree hR hA hn _ _ (by omega) (by omega) (by omega)) fun _ _ => rfl

theorem parseLineN_eq (hn : L.blank '\n' = false) (s : List Char) {n : Nat} (h : s.length + 2 ≤ n) : parseLineN L n s = parseLine L s :=
  parseLineN_agree hn s (by omega) (by omega)

end Yash.Parser
