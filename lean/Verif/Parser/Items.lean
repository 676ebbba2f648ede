import Verif.Parser.TokWords
/-!
# Redirections, assignments and simple commands are read back
-/
set_option autoImplicit false

namespace Yash.Parser

open Syntax Spec
open Expand (Locale)

variable {L : Locale}

theorem parser_fuel (m : Nat) : (parser L m).fuel = m := by
  induction m with
  | zero => rfl
  | succ m ih => show (parser L m).fuel + 1 = _; rw [ih]

/-! ## Text -/

/-- The text of a part of a command. -/
structure Txt (s : List Char) : Prop where
  ne : s ≠ []
  last : s.getLast? ≠ some ' '
  norm : ∀ r, Sep r → lineCont (s ++ r) = s ++ r

/-- The text of further parts of a command. -/
def Tail (t : List Char) : Prop := t = [] ∨ ∃ t', t = ' ' :: t' ∧ t.getLast? ≠ some ' '

theorem getLast?_append_ne {α : Type} {a b : List α} (h : b ≠ []) : (a ++ b).getLast? = b.getLast? := by
  rw [List.getLast?_append]
  cases hb : b.getLast? with
  | none => simp at hb; exact absurd hb h
  | some x => simp

theorem Tail.nil : Tail [] := .inl rfl

theorem Txt.space {s : List Char} (h : Txt s) : Tail (' ' :: s) := by
  refine .inr ⟨s, rfl, ?_⟩
  rw [show ' ' :: s = [' '] ++ s from rfl, getLast?_append_ne h.ne]
  exact h.last

theorem Tail.append {a b : List Char} (ha : Tail a) (hb : Tail b) : Tail (a ++ b) := by
  rcases ha with rfl | ⟨a', rfl, ha⟩
  · exact hb
  · rcases hb with rfl | ⟨b', rfl, hb⟩
    · exact .inr ⟨a', by simp, by simpa using ha⟩
    · refine .inr ⟨a' ++ ' ' :: b', by simp, ?_⟩
      rw [getLast?_append_ne (by simp)]
      exact hb

theorem Tail.sep {t r : List Char} (ht : Tail t) (hr : Sep r) : Sep (t ++ r) := by
  rcases ht with rfl | ⟨t', rfl, _⟩
  · exact hr
  · exact Sep.space _

theorem Txt.tail {s t : List Char} (hs : Txt s) (ht : Tail t) : Txt (s ++ t) where
  ne := by simp [hs.ne]
  last := by
    rcases ht with rfl | ⟨t', rfl, ht⟩
    · simpa using hs.last
    · rw [getLast?_append_ne (by simp)]
      exact ht
  norm := fun r hr => by
    rw [List.append_assoc]
    exact hs.norm _ (ht.sep hr)

theorem trimEnd_ne {b : List Char} (h : b.getLast? ≠ some ' ') : trimEnd b = b := by
  unfold trimEnd
  rw [← List.head?_reverse] at h
  cases hb : b.reverse with
  | nil => simp at hb; simp [hb]
  | cons c t =>
    rw [hb] at h
    simp at h
    rw [List.dropWhile_cons_of_neg (by simpa using h), ← hb, List.reverse_reverse]

theorem trimEnd_space (b : List Char) : trimEnd (b ++ [' ']) = trimEnd b := by
  simp [trimEnd]

theorem Txt.trim {s : List Char} (h : Txt s) (buf : List Char) : trimEnd (buf ++ s ++ [' ']) = buf ++ s := by
  rw [trimEnd_space]
  apply trimEnd_ne
  rw [getLast?_append_ne h.ne]
  exact h.last

theorem Txt.of_head {c : Char} {s : List Char} (hc : c ≠ '\\') (hl : (c :: s).getLast? ≠ some ' ') : Txt (c :: s) :=
  ⟨by simp, hl, fun _ _ => lineCont_id hc⟩

theorem guardParen_eq (b s : List Char) (n : Nat) (hn : n = b.length) :
    guardParen n (b ++ s) = if s.head? = some '(' then b ++ ' ' :: s else b ++ s := by
  subst hn
  simp [guardParen]

theorem guardParen_last (n : Nat) (b : List Char) : (guardParen n b).getLast? = b.getLast? := by
  unfold guardParen
  split
  · rename_i h
    have h1 : b.drop n ≠ [] := by
      intro he
      simp [he] at h
    rw [show b.take n ++ ' ' :: b.drop n = (b.take n ++ [' ']) ++ b.drop n by simp, getLast?_append_ne h1]
    conv => rhs; rw [← List.take_append_drop n b, getLast?_append_ne h1]
  · rfl

theorem printUnit_last (ml : Bool) (i : Nat) (u : WordUnit) (hu : ∀ t, u ≠ .str t) (buf : List Char) :
    (printUnit L ml i u buf).getLast? = some '}' ∨ (printUnit L ml i u buf).getLast? = some ')' := by
  cases u with
  | str t => exact absurd rfl (hu t)
  | param p =>
    obtain ⟨t, base, start, stop, pattern, subst⟩ := p
    left
    rw [printUnit, printParam_eq, printMod, getLast?_append_ne (by simp)]
    rfl
  | cmdsub c =>
    right
    rw [printUnit, guardParen_last, getLast?_append_ne (by simp)]
    rfl
  | arith w =>
    right
    rw [printUnit, getLast?_append_ne (by simp)]
    rfl

theorem printWord_last (ml : Bool) (i : Nat) {w : Word} (hne : w ≠ []) (hstr : ∀ t, WordUnit.str t ∈ w → t ≠ [])
    (hs : ¬EndsWithSpace w) (buf : List Char) : (printWord L ml i w buf).getLast? ≠ some ' ' := by
  obtain ⟨w', u, rfl⟩ : ∃ w' u, w = w' ++ [u] := ⟨w.dropLast, w.getLast hne, (List.dropLast_concat_getLast hne).symm⟩
  rw [printWord_append]
  simp only [printWord]
  by_cases hu : ∃ t, u = .str t
  · obtain ⟨t, rfl⟩ := hu
    have ht := hstr t (by simp)
    rw [printUnit, getLast?_append_ne ht]
    intro hl
    apply hs
    obtain ⟨t', c, rfl⟩ : ∃ t' c, t = t' ++ [c] := ⟨t.dropLast, t.getLast ht, (List.dropLast_concat_getLast ht).symm⟩
    simp at hl
    subst hl
    exact ⟨w', t', rfl⟩
  · have := printUnit_last (L := L) ml i u (fun t he => hu ⟨t, he⟩) (printWord L ml i w' buf)
    rcases this with h | h <;> rw [h] <;> simp

theorem append_last {a b c : List Char} (h : a = b ++ c) (hc : c ≠ []) (ha : a.getLast? ≠ some ' ') : c.getLast? ≠ some ' ' := by
  rw [h, getLast?_append_ne hc] at ha
  exact ha

theorem At.cast {b b' r r' : List Char} {tk : Token} (h : At L b r tk) (hb : b' = b) (hr : r' = r) : At L b' r' tk := by
  rw [hb, hr]; exact h

/-! ## Lists of commands -/

/-- The next token after newlines. -/
def NLs (L : Locale) (b r : List Char) (tk : Token) : Prop :=
  ∃ tk0, At L b r tk0 ∧ Ev2 fun m n => newlinesLoop L (parser L m) n tk0 = some tk

/-- A list of commands is read back. -/
def ListRT (L : Locale) (l : List AndOr) : Prop :=
  ∀ ml i bare buf, ∃ s, printAndOrs L ml i bare l buf = buf ++ s ∧ (l ≠ [] → s ≠ []) ∧ (bare = true → s.getLast? ≠ some ' ') ∧
    (∀ r, (bare = true → Sep r) → lineCont r = r → lineCont (s ++ r) = s ++ r) ∧
    ∀ b r tkc, NLs L (s.reverse ++ b) r tkc → isClosing tkc.type = true ∨ tkc.type = .eoi →
      (bare = true → Sep r ∧ r.head? ≠ some '&' ∧ tkc.word = []) →
      ∃ tk1, NLs L b (s ++ r) tk1 ∧ Ev2 fun m n => ∀ need tk, newlines L (parser L m) tk = some tk1 →
        (need = true → tk.type = .newline ∨ l = []) → listLoop L (parser L m) n need tk = some (l, tkc)

theorem NLs.of_at {b r : List Char} {tk : Token} (h : At L b r tk) (ht : tk.type ≠ .newline) : NLs L b r tk := by
  refine ⟨tk, h, 1, fun m n _ hn => ?_⟩
  obtain ⟨k, rfl⟩ : ∃ k, n = k + 1 := ⟨n - 1, by omega⟩
  simp [newlinesLoop, ht]

/-- Reading a list in a nested construct. -/
theorem ListRT.read {l : List AndOr} (h : ListRT L l) (ml : Bool) (i : Nat) (bare : Bool) (buf : List Char) :
    ∃ s, printAndOrs L ml i bare l buf = buf ++ s ∧ (l ≠ [] → s ≠ []) ∧ (bare = true → s.getLast? ≠ some ' ') ∧
    (∀ r, (bare = true → Sep r) → lineCont r = r → lineCont (s ++ r) = s ++ r) ∧
    ∀ b r tkc, NLs L (s.reverse ++ b) r tkc → isClosing tkc.type = true ∨ tkc.type = .eoi →
      (bare = true → Sep r ∧ r.head? ≠ some '&' ∧ tkc.word = []) →
      ∃ tk0, At L b (s ++ r) tk0 ∧ Ev fun m => (parser L m).list tk0 = some (l, tkc) := by
  obtain ⟨s, h1, h0, h2, h3, h4⟩ := h ml i bare buf
  refine ⟨s, h1, h0, h2, h3, fun b r tkc hc ht hr => ?_⟩
  obtain ⟨tk1, ⟨tk0, h5, h6⟩, h7⟩ := h4 b r tkc hc ht hr
  refine ⟨tk0, h5, Ev.succ ?_⟩
  refine h6.diag.mono2 h7.diag fun m e1 e2 => ?_
  show listLoop L (parser L m) (parser L m).fuel false tk0 = _
  rw [parser_fuel]
  exact e2 false tk0 (by rw [newlines, parser_fuel]; exact e1) (by simp)

/-! ## Redirections -/

/-- A redirection is read back. -/
def RedirRT (L : Locale) (x : Redir) : Prop :=
  ∀ ml i buf, ∃ s, printRedir L ml i x buf = buf ++ s ∧ Txt s ∧
    ∀ b r tk, Sep r → At L (s.reverse ++ b) r tk → ∃ tk0, At L b (s ++ r) tk0 ∧ tk0.type = .ioNumber ∧
      Ev fun m => tryRedirect L (parser L m) tk0 = some (some x, tk)

theorem digits_all (n : Nat) : (Nat.toDigits 10 n).all isDigitChar = true ∧ digitsValue (Nat.toDigits 10 n) = n ∧
    Nat.toDigits 10 n ≠ [] := by
  have hd : ∀ d : Fin 10, isDigitChar (Nat.digitChar d.val) = true ∧ (Nat.digitChar d.val).toNat - 48 = d.val := by decide
  induction n using Nat.strongRecOn with
  | ind n ih =>
    by_cases h : n < 10
    · rw [Nat.toDigits_of_lt_base h]
      have := hd ⟨n, h⟩
      simp at this
      simp [digitsValue, this]
    · rw [Nat.toDigits_of_base_le (by omega) (by omega)]
      obtain ⟨h1, h2, h3⟩ := ih (n / 10) (by omega)
      have := hd ⟨n % 10, by omega⟩
      simp only at this
      refine ⟨by simp [h1, this.1], ?_, by simp⟩
      unfold digitsValue at *
      rw [List.foldl_append, h2]
      simp only [List.foldl_cons, List.foldl_nil, this.2]
      omega

/-- A file descriptor before the operator. -/
theorem At.fd (hL : LocaleOk L) {fd : Nat} (hfd : fd ≤ maxFd) (b : List Char) {r : List Char} (hr : r.head? = some '<' ∨ r.head? = some '>') :
    ∃ c s, fdText fd = c :: s ∧ c ≠ '\\' ∧ At L b (fdText fd ++ r)
      { type := .ioNumber, word := [.str (fdText fd)], text := fdText fd, src := ⟨(fdText fd).reverse ++ b, r⟩ } ∧
      fdOf [.str (fdText fd)] = fd := by
  obtain ⟨h1, h2, h3⟩ := digits_all fd
  have hfd' : fd ≤ intMax := hfd
  have ht : fdText fd = Nat.toDigits 10 fd := by rw [fdText, if_pos hfd']
  rw [ht]
  cases hs : Nat.toDigits 10 fd with
  | nil => exact absurd hs h3
  | cons c s =>
    rw [hs] at h1 h2
    have hp : ∀ d ∈ c :: s, Plain L d := by
      intro d hd
      have := List.all_eq_true.1 h1 d hd
      simp [isDigitChar] at this
      exact Plain.alnum hL (hL.digit d this.1 this.2)
    have hc : c ≠ '#' := by
      rintro rfl
      simp [isDigitChar] at h1
    have hcb : c ≠ '\\' := by
      rintro rfl
      exact absurd (hp '\\' (by simp)).2 (by decide)
    refine ⟨c, s, rfl, hcb, ?_, ?_⟩
    · have hf : Follow (isTokenDelimiter L) [.str (c :: s)] r := by
        cases r with
        | nil => simp at hr
        | cons e r =>
          simp at hr
          rcases hr with rfl | rfl <;> exact Follow.cons (by simp [isTokenDelimiter]) (by decide) (by decide)
      exact (Plain.at hp hc b r hf).2 hr h1
    · simp [fdOf, h2, hfd']

theorem redirOp_head (t : FileRedir) (r : List Char) : (redirOp t ++ r).head? = some '<' ∨ (redirOp t ++ r).head? = some '>' := by
  cases t <;> simp [redirOp]

theorem redirToken_of (t : FileRedir) : fileRedirOf (redirToken t) = some t := by cases t <;> rfl

theorem redir_file (hL : LocaleOk L) {t : FileRedir} {fd : Nat} {w : Word} (hfd : fd ≤ maxFd) (hw : TokWordRT L w) (hne : w ≠ [])
    (hstr : ∀ t, WordUnit.str t ∈ w → t ≠ []) (hsp : ¬EndsWithSpace w) : RedirRT L (.file t fd w) := by
  intro ml i buf
  obtain ⟨c, s, h1, h2, h3, h4, h5⟩ := hw.at ml i (buf ++ fdText fd ++ redirOp t)
  have hlast := append_last h1 (by simp) (printWord_last ml i hne hstr hsp _)
  obtain ⟨c1, s1, h6, h7, -, h9⟩ := At.fd (b := []) hL hfd (redirOp_head t (c :: s))
  refine ⟨fdText fd ++ redirOp t ++ c :: s, by rw [printRedir, h1]; simp, ?_, ?_⟩
  · rw [h6]
    refine Txt.of_head h7 ?_
    show ((c1 :: s1 ++ redirOp t) ++ c :: s).getLast? ≠ _
    rw [getLast?_append_ne (by simp)]
    exact hlast
  · intro b r tk hr htk
    have hf := hr.follow hL w
    have ha1 := (h5 ((redirOp t).reverse ++ ((fdText fd).reverse ++ b)) r hf.1).1 ⟨hf.2.1, hf.2.2.1⟩
    have hops := delimiter_ops h2
    have ha2 := At.redir hL t ((fdText fd).reverse ++ b) (h4 r hf.1) (by
      intro d hd
      simp at hd
      subst hd
      simp [hops])
    obtain ⟨c2, s2, h6', h7', ha3, -⟩ := At.fd hL hfd b (redirOp_head t (c :: s ++ r))
    refine ⟨_, ha3.cast rfl (by simp), rfl, ?_⟩
    refine (ha1.and ha2).mono2 htk fun m ⟨e1, e2⟩ e3 => ?_
    simp only [tryRedirect]
    rw [if_pos (by rfl)]
    simp only [next, e2, Option.bind_eq_bind, Option.bind_some, redirBody, opToken, redirToken_of, e1]
    rw [if_neg (by simp [wordToken, hne])]
    simp only [wordToken]
    simp only [List.reverse_append, List.append_assoc] at e3
    rw [e3]
    simp [h9]

theorem redir_proc (hL : LocaleOk L) {isIn : Bool} {fd : Nat} {l : List AndOr} (hfd : fd ≤ maxFd) (hl : ListRT L l) :
    RedirRT L (.proc isIn fd (.parsed l)) := by
  intro ml i buf
  obtain ⟨s, h1, _, h2, h3, h4⟩ := hl.read ml (i + 1) true (buf ++ fdText fd ++ (if isIn then "<(".toList else ">(".toList))
  have hh : ∀ t, ((if isIn then "<(".toList else ">(".toList) ++ t).head? = some '<' ∨
      ((if isIn then "<(".toList else ">(".toList) ++ t).head? = some '>' := by
    intro t
    cases isIn <;> simp
  obtain ⟨c1, s1, h6, h7, -, h9⟩ := At.fd (b := []) hL hfd (hh [])
  refine ⟨fdText fd ++ (if isIn then "<(".toList else ">(".toList) ++ s ++ [')'], by rw [printRedir, printEmbed, h1]; simp, ?_, ?_⟩
  · rw [h6]
    refine Txt.of_head h7 ?_
    show ((c1 :: s1 ++ (if isIn then "<(".toList else ">(".toList) ++ s) ++ [')']).getLast? ≠ _
    rw [getLast?_append_ne (by simp)]
    simp
  · intro b r tk hr htk
    have ha1 := At.rparen hL (s.reverse ++ ((if isIn then "<(".toList else ">(".toList).reverse ++ ((fdText fd).reverse ++ b))) r
    obtain ⟨tk1, ha2, hev⟩ := h4 _ _ _ (NLs.of_at ha1 (by simp [opToken])) (.inl rfl) (fun _ => ⟨Sep.rparen r, by simp, rfl⟩)
    have ha3 : At L ((fdText fd).reverse ++ b) ((if isIn then "<(".toList else ">(".toList) ++ (s ++ ')' :: r))
        (opToken (if isIn then .lesslparen else .greaterlparen) (if isIn then "<(".toList else ">(".toList) ((fdText fd).reverse ++ b)
          (s ++ ')' :: r)) := by
      cases isIn
      · exact At.greaterlparen hL _ _
      · exact At.lesslparen hL _ _
    obtain ⟨c2, s2, h6', h7', ha4, -⟩ := At.fd hL hfd b (hh (s ++ ')' :: r))
    refine ⟨_, ha4.cast rfl (by simp), rfl, ?_⟩
    refine ((ha2.and ha3).and hev).mono2 htk fun m ⟨⟨e1, e2⟩, e4⟩ e3 => ?_
    simp only [tryRedirect]
    rw [if_pos (by rfl)]
    simp only [next, e2, Option.bind_eq_bind, Option.bind_some, redirBody]
    have hfr : fileRedirOf (opToken (if isIn then .lesslparen else .greaterlparen) (if isIn then "<(".toList else ">(".toList)
        ((fdText fd).reverse ++ b) (s ++ ')' :: r)).type = none := by cases isIn <;> rfl
    rw [hfr]
    simp only
    rw [if_pos (by cases isIn <;> rfl)]
    have hsrc : (opToken (if isIn then .lesslparen else .greaterlparen) (if isIn then "<(".toList else ">(".toList)
        ((fdText fd).reverse ++ b) (s ++ ')' :: r)).src = ⟨(if isIn then "<(".toList else ">(".toList).reverse ++ ((fdText fd).reverse ++ b),
          s ++ ')' :: r⟩ := rfl
    rw [hsrc, e1]
    simp only [Option.bind_some, e4]
    rw [if_pos (by rfl)]
    simp only [opToken]
    simp only [List.reverse_append, List.append_assoc, List.reverse_cons, List.reverse_nil, List.nil_append, List.cons_append] at e3 ⊢
    rw [e3]
    simp only [Option.bind_some, h9]
    cases isIn <;> rfl

/-- A token that starts a redirection. -/
def isRedirTok (t : TokenType) : Bool := t == .ioNumber || startsLess t || startsGreater t

theorem tryRedirect_none {R : Rec} {tk : Token} (h : isRedirTok tk.type = false) : tryRedirect L R tk = some (none, tk) := by
  simp [isRedirTok] at h
  simp [tryRedirect, h]

theorem redirs_tail (hL : LocaleOk L) (rs : List Redir) (h : ∀ x ∈ rs, RedirRT L x) (ml : Bool) (i : Nat) (buf : List Char) :
    ∃ t, printRedirs L ml i rs (buf ++ [' ']) = buf ++ t ++ [' '] ∧ Tail t ∧
      ∀ b r tk, Sep r → isRedirTok tk.type = false → At L (t.reverse ++ b) r tk → ∃ tk0, At L b (t ++ r) tk0 ∧
        (tk0 = tk ∨ tk0.type = .ioNumber) ∧
        (Ev2 fun m n => redirsLoop L (parser L m) n tk0 = some (rs, tk)) ∧
        (tk.word = [] → Ev2 fun m n => ∀ first, simpleLoop L (parser L m) n first tk0 = some (⟨rs, [], []⟩, tk)) := by
  induction rs generalizing buf with
  | nil =>
    refine ⟨[], by simp [printRedirs], Tail.nil, fun b r tk hr hrt htk => ⟨tk, by simpa using htk, .inl rfl, ?_, fun hw => ?_⟩⟩
    · refine Ev2.succ ⟨0, fun m n _ _ => ?_⟩
      show redirsLoop L (parser L m) (n + 1) tk = _
      rw [redirsLoop, tryRedirect_none hrt]
    · refine Ev2.succ ⟨0, fun m n _ _ first => ?_⟩
      simp only [simpleLoop, tryRedirect_none hrt]
      cases first <;> simp [tryAssign, splitAssign, hw]
  | cons x rs ih =>
    obtain ⟨s, h1, h2, h3⟩ := h x (by simp) ml i (buf ++ [' '])
    obtain ⟨t, h4, h5, h6⟩ := ih (fun y hy => h y (by simp [hy])) (buf ++ [' '] ++ s)
    refine ⟨' ' :: s ++ t, ?_, h2.space.append h5, fun b r tk hr hrt htk => ?_⟩
    · rw [printRedirs, h1, h4]; simp
    · obtain ⟨tk1, h7, _, h8, h9⟩ := h6 (s.reverse ++ ' ' :: b) r tk hr hrt (htk.cast (by simp) rfl)
      obtain ⟨tk0, h10, h11, h12⟩ := h3 (' ' :: b) (t ++ r) tk1 (h5.sep hr) h7
      refine ⟨tk0, (At.space (b := b) hL h10).cast rfl (by simp), .inr h11, ?_, fun hw => ?_⟩
      · refine Ev2.succ ((h12.two.and h8).mono fun m n ⟨e1, e2⟩ => ?_)
        show redirsLoop L (parser L m) (n + 1) tk0 = _
        rw [redirsLoop, e1]
        simp [e2]
      · refine Ev2.succ ((h12.two.and (h9 hw)).mono fun m n ⟨e1, e2⟩ first => ?_)
        show simpleLoop L (parser L m) (n + 1) first tk0 = _
        rw [simpleLoop, e1]
        simp [e2]

end Yash.Parser
