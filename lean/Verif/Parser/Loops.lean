import Verif.Parser.Words
/-!
# Arithmetic expressions and regular expressions are read back
-/
set_option autoImplicit false

namespace Yash.Parser

open Syntax Spec
open Expand (Locale)

variable {L : Locale}

/-- A word that has been printed is read back. -/
theorem WordRT.parse {delim : Char → Bool} {h : Option Char} {w : Word} (hw : WordRT L delim false [] h w) (ml : Bool) (i : Nat)
    (buf : List Char) : ∃ s, printWord L ml i w buf = buf ++ s ∧ (s = [] → w = []) ∧ (s ≠ [] → s.head? = h) ∧
      (∀ r, Follow delim w r → lineCont (s ++ r) = s ++ r) ∧ ∀ b r, Follow delim w r → Ev fun m =>
        parseWord (parser L m).special delim ⟨b, s ++ r⟩ = some (w, ⟨s.reverse ++ b, r⟩) := by
  obtain ⟨s, h1, h2, h3, h4, h5⟩ := hw ml i buf
  refine ⟨s, by simpa using h1, by simpa [stringUnit] using h2, h3, h4, fun b r hr => ?_⟩
  exact (h5 b r hr ((s ++ r).length + 1) (by simp; omega)).mono fun m hm => hm

/-! ## Arithmetic expressions -/

/-- The rest of an arithmetic expression is read back. -/
def ArithRT (L : Locale) (nest : Nat) (acc : List Char) (h : Option Char) (w : Word) : Prop :=
  ∀ ml i buf, ∃ s, printWord L ml i w buf = buf ++ acc ++ s ∧ (s ≠ [] → s.head? = h) ∧
    (∀ t, lineCont (s ++ ')' :: t) = s ++ ')' :: t) ∧
    ∀ b r, Ev fun m => ∀ k, s.length < k →
      arithLoop (parser L m) k nest acc ⟨b, s ++ ')' :: ')' :: r⟩ = some (some w, ⟨')' :: ')' :: (s.reverse ++ b), r⟩)

theorem ArithRT.done (acc : List Char) (h : Option Char) : ArithRT L 0 acc h (stringUnit acc) := by
  intro ml i buf
  refine ⟨[], by simp [printWord_stringUnit], fun h => absurd rfl h, fun t => lineCont_id (by decide), ?_⟩
  intro b r
  refine .of fun m k hk => ?_
  obtain ⟨k, rfl⟩ : ∃ k', k = k' + 1 := ⟨k - 1, by omega⟩
  rw [List.nil_append, arithLoop, lineCont_id (by decide)]
  simp only
  rw [if_neg (by decide), if_neg (by decide), if_neg (by decide), if_pos (by decide), lineCont_id (by decide)]
  simp

theorem ArithRT.step {nest nest' : Nat} {acc : List Char} {h : Option Char} {w : Word} (x : List Char) (hx : x ≠ [])
    (hw : ArithRT L nest' (acc ++ x) h w)
    (hnorm : ∀ t, lineCont t = t → lineCont (x ++ t) = x ++ t)
    (hread : ∀ R k b t, lineCont t = t → arithLoop R (k + 1) nest acc ⟨b, x ++ t⟩ =
      arithLoop R k nest' (acc ++ x) ⟨x.reverse ++ b, t⟩) :
    ArithRT L nest acc x.head? w := by
  intro ml i buf
  obtain ⟨s, h1, h3, h4, h5⟩ := hw ml i buf
  refine ⟨x ++ s, by rw [h1]; simp, ?_, ?_, ?_⟩
  · intro _
    cases x with
    | nil => exact absurd rfl hx
    | cons c x => rfl
  · intro r
    rw [List.append_assoc]
    exact hnorm _ (h4 r)
  · intro b r
    refine (h5 (x.reverse ++ b) r).mono fun m hm k hk => ?_
    obtain ⟨k, rfl⟩ : ∃ k', k = k' + 1 := ⟨k - 1, by omega⟩
    have hxl : 0 < x.length := List.length_pos_iff.2 hx
    simp only [List.length_append] at hk
    rw [List.append_assoc, hread _ _ _ _ (h4 _), hm k (by omega)]
    simp

theorem ArithRT.unit {nest : Nat} {acc : List Char} {h : Option Char} {w : Word} {u : WordUnit}
    (hu : UnitRT L u) (hw : ArithRT L nest [] h w) : ArithRT L nest acc (some '$') (stringUnit acc ++ u :: w) := by
  intro ml i buf
  obtain ⟨c, s1, h1, hc, h2⟩ := hu ml i (buf ++ acc)
  obtain ⟨s2, h3, h5, h6, h7⟩ := hw ml i (buf ++ acc ++ '$' :: c :: s1)
  refine ⟨'$' :: c :: s1 ++ s2, ?_, by simp, fun r => lineCont_id (by decide), ?_⟩
  · rw [printWord_append, printWord_stringUnit, printWord, h1, h3]
    simp
  · intro b r
    refine (h2 b (s2 ++ ')' :: ')' :: r) false).mono2 (h7 (('$' :: c :: s1).reverse ++ b) r) fun m e1 e2 k hk => ?_
    obtain ⟨k, rfl⟩ : ∃ k', k = k' + 1 := ⟨k - 1, by omega⟩
    simp only [List.length_append, List.length_cons] at hk
    rw [arithLoop]
    simp only [List.cons_append]
    rw [lineCont_id (by decide)]
    simp only
    rw [if_neg (by decide), if_pos (by decide)]
    rw [List.append_assoc]
    simp only [List.cons_append] at e1
    rw [e1]
    simp only
    rw [e2 k (by omega)]
    simp

theorem ArithRT.dollar {nest : Nat} {acc r : List Char} {w : Word}
    (h3 : ∀ d ∈ (lineCont r).head?, startsParam d = false)
    (hw : ArithRT L nest ['$'] (lineCont r).head? w) : ArithRT L nest acc (some '$') (stringUnit acc ++ w) := by
  intro ml i buf
  obtain ⟨s, h4, h6, h7, h8⟩ := hw ml i (buf ++ acc)
  refine ⟨'$' :: s, ?_, by simp, fun r => lineCont_id (by decide), ?_⟩
  · rw [printWord_append, printWord_stringUnit, h4]
    simp
  · intro b r1
    have hstart : ∀ d ∈ (s ++ ')' :: ')' :: r1).head?, startsParam d = false := by
      cases s with
      | nil =>
        intro d hd
        simp at hd
        subst hd
        decide
      | cons c s =>
        have := h6 (by simp)
        simp at this
        rw [← this] at h3
        simpa using h3
    refine Ev.succ ?_
    obtain ⟨m0, hm0⟩ := h8 ('$' :: b) r1
    refine ⟨m0, fun m hm k hk => ?_⟩
    obtain ⟨k, rfl⟩ : ∃ k', k = k' + 1 := ⟨k - 1, by omega⟩
    simp only [List.length_cons] at hk
    rw [arithLoop]
    simp only [List.cons_append]
    rw [lineCont_id (by decide)]
    simp only
    rw [if_neg (by decide), if_pos (by decide), special_eq,
      special_dollar _ _ _ _ (h7 _) hstart]
    simp only
    have := hm0 (m + 1) (by omega) k (by omega)
    rw [this]
    simp

/-- The loop that reads an arithmetic expression. -/
theorem arith_loop {R : Rec} (hs : GoodSpecial L R.special) (n : Nat) :
    ∀ nest acc b0 r0 res st, NT r0 → arithLoop R n nest acc ⟨b0, r0⟩ = some (res, st) →
      NT st.rest ∧ (res = none → st.rest ≠ []) ∧ ∀ w, res = some w → WordOk L w → ArithRT L nest acc (lineCont r0).head? w := by
  induction n with
  | zero => intro nest acc b0 r0 w st _ h; simp [arithLoop] at h
  | succ n ih =>
    intro nest acc b0 r0 res st hnt h
    simp only [arithLoop] at h
    have hnt := hnt.lineCont
    have hnorm : lineCont (lineCont r0) = lineCont r0 := lineCont_idem r0
    cases hr : lineCont r0 with
    | nil => simp [hr] at h
    | cons c r =>
      rw [hr] at h hnt hnorm
      simp only at h
      by_cases hbs : c = '\\'
      · subst hbs
        rw [if_pos (by simp)] at h
        cases r with
        | nil => exact absurd rfl hnt
        | cons d r =>
          simp only at h
          have hdn : d ≠ '\n' := normal_bs hnorm
          obtain ⟨h1, h2, h3⟩ := ih _ _ _ _ _ _ hnt.tail.tail h
          refine ⟨h1, h2, fun w hw hok => ?_⟩
          refine (h3 w hw hok).step ['\\', d] (by simp) (fun t _ => lineCont_bs_id hdn) ?_
          intro R k b t _
          simp only [List.cons_append, List.nil_append]
          rw [arithLoop, lineCont_bs_id hdn]
          simp
      rw [if_neg (by simp [hbs])] at h
      by_cases hsp : (c == '$' || c == '`') = true
      · rw [if_pos hsp] at h
        split at h
        · cases h
        · rename_i u st1 hu
          obtain ⟨h1, h2, h3⟩ := hs.unit _ _ _ _ _ _ hnt hu
          split at h
          · cases h
          · rename_i st2 hw1
            cases h
            obtain ⟨h4, h5, h6⟩ := ih _ _ st1.before st1.rest _ _ h1 hw1
            exact ⟨h4, h5, by simp⟩
          · rename_i w1 st2 hw1
            cases h
            obtain ⟨h4, h5, h6⟩ := ih _ _ st1.before st1.rest _ _ h1 hw1
            refine ⟨h4, by simp, ?_⟩
            intro w hw hok
            cases hw
            rw [WordOk_append] at hok
            obtain ⟨_, hok⟩ := hok
            simp only [WordOk] at hok
            obtain ⟨rfl, hu'⟩ := h3 hok.1
            exact ArithRT.unit hu' (h6 _ rfl hok.2)
        · cases h
        · rename_i b1 d r1 hu
          obtain ⟨rfl, h2, h3⟩ := hs.dollar _ _ _ _ _ hu
          cases h2
          split at h
          · cases h
          · rename_i st2 hw1
            cases h
            obtain ⟨h4, h5, h6⟩ := ih _ _ _ _ _ _ hnt.tail.lineCont hw1
            exact ⟨h4, h5, by simp⟩
          · rename_i w1 st1 hw1
            cases h
            obtain ⟨h4, h5, h6⟩ := ih _ _ _ _ _ _ hnt.tail.lineCont hw1
            refine ⟨h4, by simp, ?_⟩
            intro w hw hok
            cases hw
            rw [WordOk_append] at hok
            have := h6 _ rfl hok.2
            rw [lineCont_idem] at this
            exact ArithRT.dollar h3 this
      rw [if_neg hsp] at h
      by_cases hl : c = '('
      · subst hl
        rw [if_pos (by simp)] at h
        obtain ⟨h1, h2, h3⟩ := ih _ _ _ _ _ _ hnt.tail h
        refine ⟨h1, h2, fun w hw hok => ?_⟩
        refine (h3 w hw hok).step ['('] (by simp) (fun t _ => lineCont_id hbs) ?_
        intro R k b t _
        simp only [List.cons_append, List.nil_append]
        rw [arithLoop, lineCont_id hbs]
        simp
      rw [if_neg (by simp [hl])] at h
      by_cases hc : c = ')'
      · subst hc
        rw [if_pos (by simp)] at h
        split at h
        · obtain ⟨h1, h2, h3⟩ := ih _ _ _ _ _ _ hnt.tail h
          refine ⟨h1, h2, fun w hw hok => ?_⟩
          refine (h3 w hw hok).step [')'] (by simp) (fun t _ => lineCont_id hbs) ?_
          intro R k b t _
          simp only [List.cons_append, List.nil_append]
          rw [arithLoop, lineCont_id hbs]
          simp
        · split at h
          · cases h
          · rename_i d r1 hr1
            have hnt1 := hnt.tail.lineCont
            rw [hr1] at hnt1
            split at h
            · cases h
              refine ⟨hnt1.tail, by simp, ?_⟩
              intro w hw _
              cases hw
              exact ArithRT.done _ _
            · cases h
              exact ⟨hnt1.cons hbs, by simp, by simp⟩
      rw [if_neg (by simp [hc])] at h
      obtain ⟨h1, h2, h3⟩ := ih _ _ _ _ _ _ hnt.tail h
      refine ⟨h1, h2, fun w hw hok => ?_⟩
      refine (h3 w hw hok).step [c] (by simp) (fun t _ => lineCont_id hbs) ?_
      intro R k b t _
      simp only [List.cons_append, List.nil_append]
      rw [arithLoop, lineCont_id hbs]
      simp only
      rw [if_neg (by simp [hbs]), if_neg hsp, if_neg (by simp [hl]), if_neg (by simp [hc])]
      simp

/-! ## Regular expressions -/

/-- The rest of a regular expression is read back. -/
def RegexRT (L : Locale) (nest : Nat) (acc : List Char) (h : Option Char) (w : Word) : Prop :=
  ∀ ml i buf, ∃ s, printWord L ml i w buf = buf ++ acc ++ s ∧ (s = [] → w = stringUnit acc ∧ nest = 0) ∧ (s ≠ [] → s.head? = h) ∧
    (∀ t, lineCont (s ++ ' ' :: t) = s ++ ' ' :: t) ∧
    (s.head? = some '|' → ∀ t, lineCont (s.tail ++ ' ' :: t) = s.tail ++ ' ' :: t) ∧
    ∀ b r, Ev fun m => ∀ k, s.length < k →
      regexLoop L (parser L m) k nest acc ⟨b, s ++ ' ' :: r⟩ = some (w, ⟨s.reverse ++ b, ' ' :: r⟩)

theorem RegexRT.done (hL : LocaleOk L) (acc : List Char) (h : Option Char) : RegexRT L 0 acc h (stringUnit acc) := by
  intro ml i buf
  refine ⟨[], by simp [printWord_stringUnit], fun _ => ⟨rfl, rfl⟩, fun h => absurd rfl h, fun t => lineCont_id (by decide), by simp, ?_⟩
  intro b r
  refine .of fun m k hk => ?_
  obtain ⟨k, rfl⟩ : ∃ k', k = k' + 1 := ⟨k - 1, by omega⟩
  rw [List.nil_append, regexLoop, lineCont_id (by decide)]
  simp only
  rw [if_neg (by decide), if_neg (by decide), if_neg (by decide), if_neg (by decide), if_neg]
  · simp
  · simp [isTokenDelimiter, hL.space]

theorem RegexRT.step {nest nest' : Nat} {acc : List Char} {h : Option Char} {w : Word} (x : List Char) (hx : x ≠ [])
    (hp : x.head? = some '|' → x.tail = []) (hw : RegexRT L nest' (acc ++ x) h w)
    (hnorm : ∀ t, lineCont t = t → lineCont (x ++ t) = x ++ t)
    (hread : ∀ R k b t, lineCont t = t → regexLoop L R (k + 1) nest acc ⟨b, x ++ t⟩ =
      regexLoop L R k nest' (acc ++ x) ⟨x.reverse ++ b, t⟩) :
    RegexRT L nest acc x.head? w := by
  intro ml i buf
  obtain ⟨s, h1, h2, h3, h4, h6, h5⟩ := hw ml i buf
  refine ⟨x ++ s, by rw [h1]; simp, by simp [hx], ?_, ?_, ?_, ?_⟩
  · intro _
    cases x with
    | nil => exact absurd rfl hx
    | cons c x => rfl
  · intro r
    rw [List.append_assoc]
    exact hnorm _ (h4 r)
  · intro hh t
    cases x with
    | nil => exact absurd rfl hx
    | cons c x =>
      have : x = [] := hp hh
      subst this
      exact h4 t
  · intro b r
    refine (h5 (x.reverse ++ b) r).mono fun m hm k hk => ?_
    obtain ⟨k, rfl⟩ : ∃ k', k = k' + 1 := ⟨k - 1, by omega⟩
    have hxl : 0 < x.length := List.length_pos_iff.2 hx
    simp only [List.length_append] at hk
    rw [List.append_assoc, hread _ _ _ _ (h4 _), hm k (by omega)]
    simp

theorem RegexRT.unit {nest : Nat} {acc : List Char} {h : Option Char} {w : Word} {u : WordUnit}
    (hu : UnitRT L u) (hw : RegexRT L nest [] h w) : RegexRT L nest acc (some '$') (stringUnit acc ++ u :: w) := by
  intro ml i buf
  obtain ⟨c, s1, h1, hc, h2⟩ := hu ml i (buf ++ acc)
  obtain ⟨s2, h3, h4, h5, h6, _, h7⟩ := hw ml i (buf ++ acc ++ '$' :: c :: s1)
  refine ⟨'$' :: c :: s1 ++ s2, ?_, by simp, by simp, fun r => lineCont_id (by decide), by simp, ?_⟩
  · rw [printWord_append, printWord_stringUnit, printWord, h1, h3]
    simp
  · intro b r
    refine (h2 b (s2 ++ ' ' :: r) false).mono2 (h7 (('$' :: c :: s1).reverse ++ b) r) fun m e1 e2 k hk => ?_
    obtain ⟨k, rfl⟩ : ∃ k', k = k' + 1 := ⟨k - 1, by omega⟩
    simp only [List.length_append, List.length_cons] at hk
    rw [regexLoop]
    simp only [List.cons_append]
    rw [lineCont_id (by decide)]
    simp only
    rw [if_neg (by decide), if_pos (by decide)]
    rw [List.append_assoc]
    simp only [List.cons_append] at e1
    rw [e1]
    simp only
    rw [e2 k (by omega)]
    simp

theorem RegexRT.dollar {nest : Nat} {acc r : List Char} {w : Word}
    (h3 : ∀ d ∈ (lineCont r).head?, startsParam d = false)
    (hw : RegexRT L nest ['$'] (lineCont r).head? w) : RegexRT L nest acc (some '$') (stringUnit acc ++ w) := by
  intro ml i buf
  obtain ⟨s, h4, _, h6, h7, _, h8⟩ := hw ml i (buf ++ acc)
  refine ⟨'$' :: s, ?_, by simp, by simp, fun r => lineCont_id (by decide), by simp, ?_⟩
  · rw [printWord_append, printWord_stringUnit, h4]
    simp
  · intro b r1
    have hstart : ∀ d ∈ (s ++ ' ' :: r1).head?, startsParam d = false := by
      cases s with
      | nil =>
        intro d hd
        simp at hd
        subst hd
        decide
      | cons c s =>
        have := h6 (by simp)
        simp at this
        rw [← this] at h3
        simpa using h3
    refine Ev.succ ?_
    obtain ⟨m0, hm0⟩ := h8 ('$' :: b) r1
    refine ⟨m0, fun m hm k hk => ?_⟩
    obtain ⟨k, rfl⟩ : ∃ k', k = k' + 1 := ⟨k - 1, by omega⟩
    simp only [List.length_cons] at hk
    rw [regexLoop]
    simp only [List.cons_append]
    rw [lineCont_id (by decide)]
    simp only
    rw [if_neg (by decide), if_pos (by decide), special_eq,
      special_dollar _ _ _ _ (h7 _) hstart]
    simp only
    have := hm0 (m + 1) (by omega) k (by omega)
    rw [this]
    simp

/-- The loop that reads a regular expression. -/
theorem regex_loop (hL : LocaleOk L) {R : Rec} (hs : GoodSpecial L R.special) (n : Nat) :
    ∀ nest acc b0 r0 w st, NT r0 → regexLoop L R n nest acc ⟨b0, r0⟩ = some (w, st) →
      NT st.rest ∧ (acc ≠ [] → w ≠ []) ∧ (∀ t, WordUnit.str t ∈ w → t ≠ []) ∧
      (WordOk L w → RegexRT L nest acc (lineCont r0).head? w) := by
  induction n with
  | zero => intro nest acc b0 r0 w st _ h; simp [regexLoop] at h
  | succ n ih =>
    intro nest acc b0 r0 w st hnt h
    simp only [regexLoop] at h
    have hnt := hnt.lineCont
    have hnorm : lineCont (lineCont r0) = lineCont r0 := lineCont_idem r0
    cases hr : lineCont r0 with
    | nil => simp [hr] at h
    | cons c r =>
      rw [hr] at h hnt hnorm
      simp only at h
      by_cases hbs : c = '\\'
      · subst hbs
        rw [if_pos (by simp)] at h
        cases r with
        | nil => exact absurd rfl hnt
        | cons d r =>
          simp only at h
          have hdn : d ≠ '\n' := normal_bs hnorm
          obtain ⟨h1, h2, h4, h3⟩ := ih _ _ _ _ _ _ hnt.tail.tail h
          refine ⟨h1, fun _ => h2 (by simp), h4, fun hok => ?_⟩
          refine RegexRT.step ['\\', d] (by simp) (by simp) (h3 hok) (fun t _ => lineCont_bs_id hdn) ?_
          intro R k b t _
          simp only [List.cons_append, List.nil_append]
          rw [regexLoop, lineCont_bs_id hdn]
          simp
      rw [if_neg (by simp [hbs])] at h
      by_cases hsp : (c == '$' || c == '`') = true
      · rw [if_pos hsp] at h
        split at h
        · cases h
        · rename_i u st1 hu
          obtain ⟨h1, h2, h3⟩ := hs.unit _ _ _ _ _ _ hnt hu
          simp only [Option.bind_eq_bind, Option.bind_eq_some_iff] at h
          obtain ⟨⟨w1, st2⟩, hw1, h⟩ := h
          cases h
          obtain ⟨h4, h5, h7, h6⟩ := ih _ _ st1.before st1.rest _ _ h1 hw1
          refine ⟨h4, by simp, ?_, ?_⟩
          · intro t ht
            simp at ht
            rcases ht with ht | ht | ht
            · exact (stringUnit_ne ht).2
            · exact absurd ht.symm (h2 t)
            · exact h7 t ht
          intro hok
          rw [WordOk_append] at hok
          obtain ⟨_, hok⟩ := hok
          simp only [WordOk] at hok
          obtain ⟨rfl, hu'⟩ := h3 hok.1
          exact RegexRT.unit hu' (h6 hok.2)
        · cases h
        · rename_i b1 d r1 hu
          obtain ⟨rfl, h2, h3⟩ := hs.dollar _ _ _ _ _ hu
          cases h2
          simp only [Option.bind_eq_bind, Option.bind_eq_some_iff] at h
          obtain ⟨⟨w1, st2⟩, hw1, h⟩ := h
          cases h
          obtain ⟨h4, h5, h7, h6⟩ := ih _ _ _ _ _ _ hnt.tail.lineCont hw1
          refine ⟨h4, fun _ => by simp [h5], ?_, ?_⟩
          · intro t ht
            simp at ht
            rcases ht with ht | ht
            · exact (stringUnit_ne ht).2
            · exact h7 t ht
          intro hok
          rw [WordOk_append] at hok
          have := h6 hok.2
          rw [lineCont_idem] at this
          exact RegexRT.dollar h3 this
      rw [if_neg hsp] at h
      by_cases hl : c = '('
      · subst hl
        rw [if_pos (by simp)] at h
        obtain ⟨h1, h2, h4, h3⟩ := ih _ _ _ _ _ _ hnt.tail h
        refine ⟨h1, fun _ => h2 (by simp), h4, fun hok => ?_⟩
        refine RegexRT.step ['('] (by simp) (by simp) (h3 hok) (fun t _ => lineCont_id hbs) ?_
        intro R k b t _
        simp only [List.cons_append, List.nil_append]
        rw [regexLoop, lineCont_id hbs]
        simp
      rw [if_neg (by simp [hl])] at h
      by_cases hc : c = ')'
      · subst hc
        rw [if_pos (by simp)] at h
        split at h
        · obtain ⟨h1, h2, h4, h3⟩ := ih _ _ _ _ _ _ hnt.tail h
          refine ⟨h1, fun _ => h2 (by simp), h4, fun hok => ?_⟩
          refine RegexRT.step [')'] (by simp) (by simp) (h3 hok) (fun t _ => lineCont_id hbs) ?_
          intro R k b t _
          simp only [List.cons_append, List.nil_append]
          rw [regexLoop, lineCont_id hbs]
          simp
        · cases h
      rw [if_neg (by simp [hc])] at h
      by_cases ht : (c == '|' || nest != 0 || !isTokenDelimiter L c) = true
      · rw [if_pos ht] at h
        obtain ⟨h1, h2, h4, h3⟩ := ih _ _ _ _ _ _ hnt.tail h
        refine ⟨h1, fun _ => h2 (by simp), h4, fun hok => ?_⟩
        refine RegexRT.step [c] (by simp) (by simp) (h3 hok) (fun t _ => lineCont_id hbs) ?_
        intro R k b t _
        simp only [List.cons_append, List.nil_append]
        rw [regexLoop, lineCont_id hbs]
        simp only
        rw [if_neg (by simp [hbs]), if_neg hsp, if_neg (by simp [hl]), if_neg (by simp [hc]), if_pos ht]
        simp
      · rw [if_neg ht] at h
        cases h
        refine ⟨hnt, fun hacc => by simp [stringUnit, hacc], fun t ht => (stringUnit_ne ht).2, fun _ => ?_⟩
        simp at ht
        rw [ht.1.2]
        exact RegexRT.done hL _ _

end Yash.Parser
