import Verif.Parser.SimpleCmd
/-!
# Compound commands are read back
-/
set_option autoImplicit false

namespace Yash.Parser

open Syntax Spec
open Expand (Locale)

variable {L : Locale}

/-! ## Newlines and indentation -/

/-- What `spaceOrNewline` appends. -/
def gap (ml : Bool) : Char := if ml then '\n' else ' '

theorem spaceOrNewline_eq (ml : Bool) (b : List Char) : spaceOrNewline ml b = b ++ [gap ml] := rfl

theorem gap_sep (ml : Bool) (r : List Char) : Sep (gap ml :: r) := by
  cases ml
  · exact Sep.space r
  · exact Sep.newline r

theorem gap_norm (ml : Bool) (r : List Char) : lineCont (gap ml :: r) = gap ml :: r := lineCont_id (by cases ml <;> decide)

theorem printIndent_eq (ml : Bool) (i : Nat) (b : List Char) : ∃ k, printIndent ml i b = b ++ List.replicate k ' ' := by
  unfold printIndent
  split
  · exact ⟨_, rfl⟩
  · exact ⟨0, by simp⟩

theorem NLs.space (hL : LocaleOk L) {b r : List Char} {tk : Token} (h : NLs L (' ' :: b) r tk) : NLs L b (' ' :: r) tk := by
  obtain ⟨tk0, h1, h2⟩ := h
  exact ⟨tk0, h1.space hL, h2⟩

theorem NLs.spaces (hL : LocaleOk L) (k : Nat) {b r : List Char} {tk : Token} (h : NLs L (List.replicate k ' ' ++ b) r tk) :
    NLs L b (List.replicate k ' ' ++ r) tk := by
  obtain ⟨tk0, h1, h2⟩ := h
  exact ⟨tk0, h1.spaces hL k, h2⟩

theorem NLs.newline (hL : LocaleOk L) {b r : List Char} {tk : Token} (h : NLs L ('\n' :: b) r tk) : NLs L b ('\n' :: r) tk := by
  obtain ⟨tk0, h1, h2⟩ := h
  refine ⟨_, At.newline hL b r, Ev2.succ ((h1.two.and h2).mono fun m n ⟨e1, e2⟩ => ?_)⟩
  show newlinesLoop L (parser L m) (n + 1) _ = _
  rw [newlinesLoop, if_pos (by rfl)]
  simp only [next, opToken, Option.bind_eq_bind]
  simp only [List.reverse_cons, List.reverse_nil, List.nil_append, List.cons_append]
  rw [e1]
  exact e2

theorem NLs.gap (hL : LocaleOk L) (ml : Bool) {b r : List Char} {tk : Token} (h : NLs L (gap ml :: b) r tk) : NLs L b (gap ml :: r) tk := by
  cases ml
  · exact NLs.space hL h
  · exact NLs.newline hL h

theorem NLs.cast {b b' r r' : List Char} {tk : Token} (h : NLs L b r tk) (hb : b' = b) (hr : r' = r) : NLs L b' r' tk := by
  rw [hb, hr]; exact h

theorem NLs.newlines {b r : List Char} {tk : Token} (h : NLs L b r tk) :
    ∃ tk0, At L b r tk0 ∧ Ev fun m => newlines L (parser L m) tk0 = some tk := by
  obtain ⟨tk0, h1, h2⟩ := h
  refine ⟨tk0, h1, h2.diag.mono fun m e => ?_⟩
  rw [Parser.newlines, parser_fuel]
  exact e

/-- Reading a list in a nested construct, possibly after newlines. -/
theorem ListRT.readNL {l : List AndOr} (h : ListRT L l) (ml : Bool) (i : Nat) (bare : Bool) (buf : List Char) :
    ∃ s, printAndOrs L ml i bare l buf = buf ++ s ∧ (bare = true → s.getLast? ≠ some ' ') ∧ (l = [] → s = []) ∧
    ∀ b r tkc, NLs L (s.reverse ++ b) r tkc → isClosing tkc.type = true ∨ tkc.type = .eoi →
      (bare = true → Sep r ∧ r.head? ≠ some '&' ∧ tkc.word = []) →
      ∃ tk1, NLs L b (s ++ r) tk1 ∧ ∀ b0 r0, NLs L b0 r0 tk1 → ∃ tk0, At L b0 r0 tk0 ∧
        Ev fun m => (parser L m).list tk0 = some (l, tkc) := by
  obtain ⟨s, h1, _, h2, h3, h4⟩ := h ml i bare buf
  refine ⟨s, h1, h2, ?_, fun b r tkc hc ht hr => ?_⟩
  · rintro rfl
    rw [printAndOrs] at h1
    simpa using h1
  · obtain ⟨tk1, h5, h7⟩ := h4 b r tkc hc ht hr
    refine ⟨tk1, h5, fun b0 r0 ⟨tk0, h8, h9⟩ => ⟨tk0, h8, Ev.succ ?_⟩⟩
    refine h9.diag.mono2 h7.diag fun m e1 e2 => ?_
    show listLoop L (parser L m) (parser L m).fuel false tk0 = _
    rw [parser_fuel]
    exact e2 false tk0 (by rw [Parser.newlines, parser_fuel]; exact e1) (by simp)

/-! ## From the parts before the redirections to the command -/

/-- A compound command is read back. -/
def CompRT (L : Locale) (c : Command) : Prop :=
  ∀ ml i buf, ∃ s, printCommand L ml i c buf = buf ++ s ++ [' '] ∧ Txt s ∧
    ∀ b r tk, Sep r → isRedirTok tk.type = false → At L (s.reverse ++ b) r tk → ∃ tk0, At L b (s ++ r) tk0 ∧
      Ev fun m => compound L (parser L m) tk0 = some (some c, tk)

theorem compound_type {R : Rec} {tk tk' : Token} {c : Command} (h : compound L R tk = some (some c, tk')) :
    tk.type ≠ .newline ∧ (tk.type == .bang || tk.type == .in || isClosing tk.type) = false := by
  unfold compound at h
  split at h
  · cases h
  · cases h
  · rename_i heq
    unfold compoundHead at heq
    split at heq <;> rename_i ht
    all_goals first
      | cases heq; done
      | (rw [ht]; decide)

theorem CompRT.cmd {c : Command} (h : CompRT L c) : CmdRT L c := by
  intro ml i buf
  obtain ⟨s, h1, h2, h3⟩ := h ml i buf
  refine ⟨s, h1, h2, fun b r tk hr he htk => ?_⟩
  obtain ⟨tk0, h4, h5⟩ := h3 b r tk hr he.redir htk
  refine ⟨tk0, h4, h5.mono fun m e => ?_⟩
  rw [command, if_neg (by rw [(compound_type e).2]; decide), e]

/-- The part of a compound command before the redirections is read back. -/
def HeadRT (L : Locale) (p : Bool → Nat → List Char → List Char) (c : Command) : Prop :=
  ∀ ml i buf, ∃ s, p ml i buf = buf ++ s ∧ Txt s ∧
    ∀ b r tk, Sep r → At L (s.reverse ++ b) r tk → ∃ tk0, At L b (s ++ r) tk0 ∧
      Ev fun m => compoundHead L (parser L m) tk0 = some (some (c, tk))

theorem HeadRT.comp (hL : LocaleOk L) {p : Bool → Nat → List Char → List Char} {c : Command} (h : HeadRT L p c) {rs : List Redir}
    (hrs : ∀ x ∈ rs, RedirRT L x)
    (hp : ∀ ml i buf, printCommand L ml i (withRedirs rs c) buf = printRedirs L ml i rs (p ml i buf ++ [' '])) :
    CompRT L (withRedirs rs c) := by
  intro ml i buf
  obtain ⟨s, h1, h2, h3⟩ := h ml i buf
  obtain ⟨t, h4, h5, h6⟩ := redirs_tail hL rs hrs ml i (buf ++ s)
  refine ⟨s ++ t, ?_, h2.tail h5, fun b r tk hr hrt htk => ?_⟩
  · rw [hp, h1, h4]; simp
  · obtain ⟨tk1, h7, _, h8, _⟩ := h6 (s.reverse ++ b) r tk hr hrt (htk.cast (by simp) rfl)
    obtain ⟨tk0, h9, h10⟩ := h3 b (t ++ r) tk1 (h5.sep hr) h7
    refine ⟨tk0, h9.cast rfl (by simp), h10.mono2 h8.diag fun m e1 e2 => ?_⟩
    simp only [compound, e1, redirs, parser_fuel, e2, Option.bind_eq_bind, Option.bind_some]

theorem expect_next {R : Rec} {ty : TokenType} {tk tk' : Token} (ht : tk.type = ty) (h : nextToken L R.special tk.src = some tk') :
    expect L R ty tk = some tk' := by
  rw [expect, if_pos (by simp [ht]), next, h]

/-! ## Groups -/

theorem NLs.keyword (hL : LocaleOk L) (k : List Char) (hk : (k ≠ [] ∧ k.all isKeywordChar = true) ∧ reservedWord k ≠ .newline) (b : List Char)
    {r : List Char} (hr : Sep r) : NLs L b (k ++ r) (wordToken [.str k] k b r) := NLs.of_at (At.keyword hL k hk.1 b hr) hk.2

def printGroup (L : Locale) (l : List AndOr) (ml : Bool) (i : Nat) (b : List Char) : List Char :=
  printIndent ml i (printAndOrs L ml (i + 1) false l (spaceOrNewline ml (b ++ ['{']))) ++ ['}']

theorem group_brace {R : Rec} {tk tk1 tk2 tk3 : Token} {l : List AndOr} (h0 : tk.type = .lbrace) (h1 : next L R tk = some tk1)
    (h2 : R.list tk1 = some (l, tk2)) (h3 : tk2.type = .rbrace) (h4 : next L R tk2 = some tk3) :
    compoundHead L R tk = some (some (.group [] l, tk3)) := by
  simp [compoundHead, h0, group, h1, h2, expect, h3, h4]

theorem group_paren {R : Rec} {tk tk1 tk2 tk3 : Token} {l : List AndOr} (h0 : tk.type = .lparen) (h1 : next L R tk = some tk1)
    (h2 : R.list tk1 = some (l, tk2)) (h3 : tk2.type = .rparen) (h4 : next L R tk2 = some tk3) :
    compoundHead L R tk = some (some (.subshell [] l, tk3)) := by
  simp [compoundHead, h0, group, h1, h2, expect, h3, h4]

theorem Txt.of_last {c d : Char} {s : List Char} (hc : c ≠ '\\') (hd : d ≠ ' ') : Txt (c :: (s ++ [d])) := by
  refine Txt.of_head hc ?_
  rw [show c :: (s ++ [d]) = (c :: s) ++ [d] from rfl, getLast?_append_ne (by simp)]
  simpa using hd

theorem head_group (hL : LocaleOk L) {l : List AndOr} (hl : ListRT L l) : HeadRT L (printGroup L l) (.group [] l) := by
  intro ml i buf
  obtain ⟨s, h1, -, -, h3⟩ := hl.readNL ml (i + 1) false (spaceOrNewline ml (buf ++ ['{']))
  obtain ⟨k, h4⟩ := printIndent_eq ml i (spaceOrNewline ml (buf ++ ['{']) ++ s)
  refine ⟨'{' :: ((gap ml :: s ++ List.replicate k ' ') ++ ['}']), ?_, Txt.of_last (by decide) (by decide), ?_⟩
  · rw [printGroup, h1, h4, spaceOrNewline_eq]; simp
  · intro b r tk hr htk
    have hn1 := (NLs.keyword hL ['}'] (by decide) (List.replicate k ' ' ++ (s.reverse ++ gap ml :: '{' :: b)) hr).spaces hL k
    obtain ⟨tk1, hn2, hread⟩ := h3 _ _ _ hn1 (.inl rfl) (by simp)
    obtain ⟨tk2, ha2, hev⟩ := hread _ _ (hn2.gap hL ml)
    have ha3 := At.keyword hL ['{'] (by decide) b (gap_sep ml (s ++ (List.replicate k ' ' ++ (['}'] ++ r))))
    refine ⟨_, ha3.cast rfl (by simp), ?_⟩
    refine (ha2.and hev).mono2 (htk.cast (b' := '}' :: (List.replicate k ' ' ++ (s.reverse ++ gap ml :: '{' :: b))) (by simp) rfl)
      fun m ⟨e1, e2⟩ e3 => ?_
    exact group_brace rfl e1 e2 rfl e3

def printSubshell (L : Locale) (l : List AndOr) (ml : Bool) (i : Nat) (b : List Char) : List Char :=
  trimEnd (printAndOrs L ml (i + 1) true l (b ++ ['('])) ++ [')']

theorem head_subshell (hL : LocaleOk L) {l : List AndOr} (hl : ListRT L l) : HeadRT L (printSubshell L l) (.subshell [] l) := by
  intro ml i buf
  obtain ⟨s, h1, -, h2, -, h3⟩ := hl.read ml (i + 1) true (buf ++ ['('])
  refine ⟨'(' :: (s ++ [')']), ?_, Txt.of_last (by decide) (by decide), ?_⟩
  · rw [printSubshell, h1, trimEnd_ne]
    · simp
    · cases s with
      | nil => simp
      | cons c s => rw [getLast?_append_ne (by simp)]; exact h2 rfl
  · intro b r tk hr htk
    have hn1 := NLs.of_at (At.rparen hL (s.reverse ++ '(' :: b) r) (by simp [opToken])
    obtain ⟨tk2, ha2, hev⟩ := h3 _ _ _ hn1 (.inl rfl) (fun _ => ⟨Sep.rparen r, by simp, rfl⟩)
    have ha3 := At.lparen hL b (s ++ ')' :: r)
    refine ⟨_, ha3.cast rfl (by simp), ?_⟩
    refine (ha2.and hev).mono2 (htk.cast (b' := ')' :: (s.reverse ++ '(' :: b)) (by simp) rfl) fun m ⟨e1, e2⟩ e3 => ?_
    exact group_paren rfl e1 e2 rfl e3

/-! ## While loops -/

/-- The text of a list between keywords: `k` is the keyword after it. -/
theorem list_keyword (hL : LocaleOk L) {l : List AndOr} (hl : ListRT L l) (k : List Char)
    (hk : (k ≠ [] ∧ k.all isKeywordChar = true) ∧ reservedWord k ≠ .newline) (hc : isClosing (reservedWord k) = true)
    (ml : Bool) (i : Nat) (buf : List Char) :
    ∃ s, printIndent ml i (printAndOrs L ml (i + 1) false l buf) ++ k = buf ++ s ++ k ∧ ∀ b r, Sep r →
      ∃ tk1, NLs L b (s ++ (k ++ r)) tk1 ∧ ∀ b0 r0, NLs L b0 r0 tk1 → ∃ tk0, At L b0 r0 tk0 ∧
        Ev fun m => (parser L m).list tk0 = some (l, wordToken [.str k] k (s.reverse ++ b) r) := by
  obtain ⟨s, h1, -, -, h3⟩ := hl.readNL ml (i + 1) false buf
  obtain ⟨n, h4⟩ := printIndent_eq ml i (buf ++ s)
  refine ⟨s ++ List.replicate n ' ', by rw [h1, h4]; simp, fun b r hr => ?_⟩
  have hn1 := (NLs.keyword hL k hk (List.replicate n ' ' ++ (s.reverse ++ b)) hr).spaces hL n
  obtain ⟨tk1, h5, h6⟩ := h3 b _ _ hn1 (.inl hc) (by simp)
  refine ⟨tk1, h5.cast rfl (by simp), fun b0 r0 h => ?_⟩
  obtain ⟨tk0, h7, h8⟩ := h6 b0 r0 h
  refine ⟨tk0, h7, ?_⟩
  rw [show (s ++ List.replicate n ' ').reverse ++ b = List.replicate n ' ' ++ (s.reverse ++ b) by simp]
  exact h8

def printWhile (L : Locale) (t : Bool) (c l : List AndOr) (ml : Bool) (i : Nat) (b : List Char) : List Char :=
  let b := printAndOrs L ml (i + 1) false c (b ++ (if t then "while ".toList else "until ".toList))
  let b := printAndOrs L ml (i + 1) false l (spaceOrNewline ml (printIndent ml i b ++ "do".toList))
  printIndent ml i b ++ "done".toList

theorem while_read {R : Rec} {tk tk1 tk2 tk3 tk4 tk5 : Token} {c l : List AndOr} (h0 : tk.type = .while ∨ tk.type = .until)
    (h1 : next L R tk = some tk1)
    (h2 : R.list tk1 = some (c, tk2)) (h3 : tk2.type = .do) (h4 : next L R tk2 = some tk3)
    (h5 : R.list tk3 = some (l, tk4)) (h6 : tk4.type = .done) (h7 : next L R tk4 = some tk5) :
    compoundHead L R tk = some (some (.whiles [] (tk.type == .while) c l, tk5)) := by
  rcases h0 with h0 | h0 <;> simp [compoundHead, h0, whileCommand, h1, h2, expect, h3, h4, h5, h6, h7]

theorem head_while (hL : LocaleOk L) {t : Bool} {c l : List AndOr} (hc : ListRT L c) (hl : ListRT L l) :
    HeadRT L (printWhile L t c l) (.whiles [] t c l) := by
  intro ml i buf
  obtain ⟨s1, h1, h2⟩ := list_keyword hL hc "do".toList (by decide) (by decide) ml i (buf ++ (if t then "while ".toList else "until ".toList))
  obtain ⟨s2, h3, h4⟩ := list_keyword hL hl "done".toList (by decide) (by decide) ml i
    (spaceOrNewline ml (buf ++ (if t then "while ".toList else "until ".toList) ++ s1 ++ "do".toList))
  refine ⟨(if t then "while".toList else "until".toList) ++ ' ' :: s1 ++ "do".toList ++ gap ml :: s2 ++ "done".toList, ?_, ?_, ?_⟩
  · rw [printWhile, h1, h3, spaceOrNewline_eq]
    cases t <;> simp
  · have : ∃ x, (if t then "while".toList else "until".toList) ++ ' ' :: s1 ++ "do".toList ++ gap ml :: s2 ++ "done".toList =
        (if t then 'w' else 'u') :: (x ++ ['e']) := by
      refine ⟨(if t then "hile".toList else "ntil".toList) ++ ' ' :: s1 ++ "do".toList ++ gap ml :: s2 ++ "don".toList, ?_⟩
      cases t <;> simp
    obtain ⟨x, hx⟩ := this
    rw [hx]
    exact Txt.of_last (by cases t <;> decide) (by decide)
  · intro b r tk hr htk
    generalize hkw : (if t then "while".toList else "until".toList) = kw at *
    have hkw1 : (kw ≠ [] ∧ kw.all isKeywordChar = true) ∧ (reservedWord kw = .while ∨ reservedWord kw = .until) ∧
        (reservedWord kw == .while) = t := by
      subst hkw; cases t <;> decide
    obtain ⟨tk1, hn1, hread1⟩ := h4 (gap ml :: ("do".toList.reverse ++ (s1.reverse ++ ' ' :: (kw.reverse ++ b)))) r hr
    obtain ⟨tk2, ha2, hev2⟩ := hread1 _ _ (hn1.gap hL ml)
    obtain ⟨tk3, hn3, hread3⟩ := h2 (' ' :: (kw.reverse ++ b)) (gap ml :: (s2 ++ ("done".toList ++ r))) (gap_sep ml _)
    obtain ⟨tk4, ha4, hev4⟩ := hread3 _ _ (hn3.space hL)
    have ha5 := At.keyword hL kw hkw1.1 b (Sep.space (s1 ++ ("do".toList ++ gap ml :: (s2 ++ ("done".toList ++ r)))))
    refine ⟨_, ha5.cast rfl (by simp), ?_⟩
    refine ((ha2.and hev2).and (ha4.and hev4)).mono2 (htk.cast (b' := "done".toList.reverse ++ (s2.reverse ++
      gap ml :: ("do".toList.reverse ++ (s1.reverse ++ ' ' :: (kw.reverse ++ b))))) (by simp) rfl) fun m ⟨⟨e1, e2⟩, e3, e4⟩ e5 => ?_
    have := while_read (L := L) (R := parser L m)
      (tk := wordToken [.str kw] kw b (' ' :: (s1 ++ ("do".toList ++ gap ml :: (s2 ++ ("done".toList ++ r)))))) hkw1.2.1 e3 e4 rfl e1 e2 rfl e5
    rw [this]
    show some (some (Command.whiles [] (reservedWord kw == .while) c l, tk)) = _
    rw [hkw1.2.2]

/-! ## If commands -/

/-- What follows the body of a clause (parser.c:2480-2503). -/
def ifRest (L : Locale) (R : Rec) (n : Nat) (tk3 : Token) : Option (List IfClause × Token) :=
  if tk3.type == .else then do
    let tk4 ← next L R tk3
    let (e, tk5) ← R.list tk4
    let tk6 ← expect L R .fi tk5
    some ([.els e], tk6)
  else if tk3.type == .elif then do
    let tk4 ← next L R tk3
    ifLoop L R n tk4
  else do
    let tk4 ← expect L R .fi tk3
    some ([], tk4)

theorem ifLoop_rest {R : Rec} {n : Nat} {tk tk1 tk2 tk3 tk4 : Token} {c b : List AndOr} {cs : List IfClause}
    (h1 : R.list tk = some (c, tk1)) (h2 : tk1.type = .then) (h3 : next L R tk1 = some tk2) (h4 : R.list tk2 = some (b, tk3))
    (h5 : ifRest L R n tk3 = some (cs, tk4)) : ifLoop L R (n + 1) tk = some (ifClause c b :: cs, tk4) := by
  have h2' : expect L R .then tk1 = some tk2 := expect_next h2 h3
  rw [ifLoop]
  simp only [h1, h2', h4, Option.bind_eq_bind, Option.bind_some]
  unfold ifRest at h5
  split at h5
  · rename_i ht
    rw [if_pos ht]
    cases h6 : next L R tk3 with
    | none => simp [h6] at h5
    | some tk4 =>
      simp only [h6, Option.bind_eq_bind, Option.bind_some] at h5 ⊢
      cases h7 : R.list tk4 with
      | none => simp [h7] at h5
      | some p =>
        obtain ⟨e, tk5⟩ := p
        simp only [h7, Option.bind_some] at h5 ⊢
        cases h8 : expect L R .fi tk5 with
        | none => simp [h8] at h5
        | some tk6 =>
          simp [h8] at h5
          simp [h8, h5]
  · rename_i ht
    rw [if_neg ht]
    split at h5
    · rename_i ht2
      rw [if_pos ht2]
      cases h6 : next L R tk3 with
      | none => simp [h6] at h5
      | some tk4 =>
        simp only [h6, Option.bind_eq_bind, Option.bind_some] at h5 ⊢
        rw [h5]
        rfl
    · rename_i ht2
      rw [if_neg ht2]
      cases h6 : expect L R .fi tk3 with
      | none => simp [h6] at h5
      | some tk4 =>
        simp [h6] at h5
        simp [h6, h5]

/-- The clause is as it is made by the parser: the condition is not empty. -/
def ClauseRT (L : Locale) : IfClause → Prop
  | .cond c l => c ≠ [] ∧ ListRT L c ∧ ListRT L l
  | .els l => ListRT L l

theorem ListRT.nil : ListRT L [] := by
  intro ml i bare buf
  refine ⟨[], by simp [printAndOrs], by simp, by simp, fun r _ hr => hr, fun b r tkc hc ht _ => ⟨tkc, by simpa using hc, ?_⟩⟩
  refine Ev2.succ ⟨0, fun m n _ _ need tk hn _ => ?_⟩
  simp only [listLoop, hn, Option.bind_eq_bind, Option.bind_some]
  rw [if_pos]
  rcases ht with ht | ht <;> simp [ht]

/-- A condition and a body up to the keyword after the body. -/
theorem cond_body (hL : LocaleOk L) {c l : List AndOr} (hc : ListRT L c) (hl : ListRT L l) (ml : Bool) (i : Nat) (buf : List Char) :
    ∃ s, printAndOrs L ml (i + 1) false l (spaceOrNewline ml (printIndent ml i (printAndOrs L ml (i + 1) false c (buf ++ [' '])) ++
        "then".toList)) = buf ++ ' ' :: s ∧
      ∀ b r tkc, NLs L (s.reverse ++ b) r tkc → isClosing tkc.type = true → ∃ tk0, At L b (s ++ r) tk0 ∧
        ∀ cs tk, (Ev2 fun m n => ifRest L (parser L m) n tkc = some (cs, tk)) →
          Ev2 fun m n => ifLoop L (parser L m) n tk0 = some (ifClause c l :: cs, tk) := by
  obtain ⟨s1, h1, h2⟩ := list_keyword hL hc "then".toList (by decide) (by decide) ml i (buf ++ [' '])
  obtain ⟨s2, h3, -, -, h4⟩ := hl.readNL ml (i + 1) false (spaceOrNewline ml (buf ++ [' '] ++ s1 ++ "then".toList))
  refine ⟨s1 ++ "then".toList ++ gap ml :: s2, ?_, fun b r tkc hn hcl => ?_⟩
  · rw [h1, h3, spaceOrNewline_eq]; simp
  · obtain ⟨tk1, hn1, hread1⟩ := h4 (gap ml :: ("then".toList.reverse ++ (s1.reverse ++ b))) r tkc (hn.cast (by simp) rfl) (.inl hcl) (by simp)
    obtain ⟨tk2, ha2, hev2⟩ := hread1 _ _ (hn1.gap hL ml)
    obtain ⟨tk3, hn3, hread3⟩ := h2 b (gap ml :: (s2 ++ r)) (gap_sep ml _)
    obtain ⟨tk4, ha4, hev4⟩ := hread3 _ _ hn3
    refine ⟨tk4, ha4.cast rfl (by simp), fun cs tk hrest => ?_⟩
    refine Ev2.succ (((ha2.and hev2).and hev4).two.and hrest |>.mono fun m n ⟨⟨⟨e1, e2⟩, e3⟩, e4⟩ => ?_)
    exact ifLoop_rest e3 rfl e1 e2 e4

def printElif (L : Locale) (c l : List AndOr) (ml : Bool) (i : Nat) (b : List Char) : List Char :=
  printAndOrs L ml (i + 1) false l (spaceOrNewline ml (printIndent ml i (printAndOrs L ml (i + 1) false c
    (b ++ [' '])) ++ "then".toList))

/-- The condition and the body of a clause. -/
def clauseParts : IfClause → List AndOr × List AndOr
  | .cond c l => (c, l)
  | .els l => ([], l)

theorem clauseParts_eq {c : IfClause} (h : ClauseRT L c) :
    ListRT L (clauseParts c).1 ∧ ListRT L (clauseParts c).2 ∧ ifClause (clauseParts c).1 (clauseParts c).2 = c := by
  cases c with
  | cond c l =>
    obtain ⟨h1, h2, h3⟩ := h
    refine ⟨h2, h3, ?_⟩
    simp [clauseParts, ifClause, h1]
  | els l => exact ⟨ListRT.nil, h, rfl⟩

theorem printClause_first (ml : Bool) (i : Nat) (last : Bool) (c : IfClause) (b : List Char) :
    printClause L ml i true last c b = printElif L (clauseParts c).1 (clauseParts c).2 ml i (b ++ "if".toList) := by
  cases c with
  | cond c l => simp [printClause, printElif, clauseParts]
  | els l => simp [printClause, printElif, clauseParts, printAndOrs]

theorem printClause_elif (ml : Bool) (i : Nat) (last : Bool) (c : IfClause) (b : List Char) (h : last = false ∨ ∃ c' l, c = .cond c' l) :
    printClause L ml i false last c b = printElif L (clauseParts c).1 (clauseParts c).2 ml i (printIndent ml i b ++ "elif".toList) := by
  cases c with
  | cond c l => simp [printClause, printElif, clauseParts]
  | els l =>
    rcases h with rfl | ⟨_, _, h⟩
    · simp [printClause, printElif, clauseParts, printAndOrs]
    · cases h

/-- The clauses after the first one. -/
theorem if_tail (hL : LocaleOk L) (cs : List IfClause) (h : ∀ c ∈ cs, ClauseRT L c) (ml : Bool) (i : Nat) (buf : List Char) :
    ∃ s, printIndent ml i (printClauses L ml i false cs buf) ++ "fi".toList = buf ++ s ++ ['i'] ∧
      ∀ b r tk, Sep r → At L ('i' :: (s.reverse ++ b)) r tk → ∃ tkc, NLs L b (s ++ 'i' :: r) tkc ∧ isClosing tkc.type = true ∧
        Ev2 fun m n => ifRest L (parser L m) n tkc = some (cs, tk) := by
  induction cs generalizing buf with
  | nil =>
    obtain ⟨k, h1⟩ := printIndent_eq ml i buf
    refine ⟨List.replicate k ' ' ++ ['f'], by simp [printClauses, h1], fun b r tk hr htk => ?_⟩
    have hn := (NLs.keyword hL "fi".toList (by decide) (List.replicate k ' ' ++ b) hr).spaces hL k
    refine ⟨_, hn.cast rfl (by simp), rfl, ?_⟩
    refine (htk.cast (b' := "fi".toList.reverse ++ (List.replicate k ' ' ++ b)) (by simp) rfl).two.mono fun m n e => ?_
    have := expect_next (L := L) (R := parser L m) (ty := .fi) (tk := wordToken [.str "fi".toList] "fi".toList (List.replicate k ' ' ++ b) r) rfl e
    show ifRest L (parser L m) n (wordToken [.str "fi".toList] "fi".toList (List.replicate k ' ' ++ b) r) = _
    unfold ifRest
    rw [if_neg (by show ¬(reservedWord "fi".toList == _) = true; decide), if_neg (by show ¬(reservedWord "fi".toList == _) = true; decide), this]
    rfl
  | cons c cs ih =>
    obtain ⟨k, h1⟩ := printIndent_eq ml i buf
    by_cases he : cs = [] ∧ ∃ l, c = .els l
    · obtain ⟨rfl, l, rfl⟩ := he
      have hl : ListRT L l := h (.els l) (by simp)
      obtain ⟨s1, h2, h3⟩ := list_keyword hL hl "fi".toList (by decide) (by decide) ml i
        (spaceOrNewline ml (printIndent ml i buf ++ "else".toList))
      refine ⟨List.replicate k ' ' ++ "else".toList ++ gap ml :: s1 ++ ['f'], ?_, fun b r tk hr htk => ?_⟩
      · simp only [printClauses, printClause]
        rw [if_pos (by simp), h2, h1, spaceOrNewline_eq]
        simp
      · obtain ⟨tk1, hn1, hread1⟩ := h3 (gap ml :: ("else".toList.reverse ++ (List.replicate k ' ' ++ b))) r hr
        obtain ⟨tk2, ha2, hev2⟩ := hread1 _ _ (hn1.gap hL ml)
        have hn3 := (NLs.keyword hL "else".toList (by decide) (List.replicate k ' ' ++ b)
          (gap_sep ml (s1 ++ ("fi".toList ++ r)))).spaces hL k
        refine ⟨_, hn3.cast rfl (by simp), rfl, ?_⟩
        refine ((ha2.and hev2).and (htk.cast (b' := "fi".toList.reverse ++ (s1.reverse ++ gap ml :: ("else".toList.reverse ++
          (List.replicate k ' ' ++ b)))) (by simp) rfl)).two.mono fun m n ⟨⟨e1, e2⟩, e3⟩ => ?_
        have := expect_next (L := L) (R := parser L m) (ty := .fi) (tk := wordToken [.str "fi".toList] "fi".toList (s1.reverse ++
          gap ml :: ("else".toList.reverse ++ (List.replicate k ' ' ++ b))) r) rfl e3
        show ifRest L (parser L m) n (wordToken [.str "else".toList] "else".toList (List.replicate k ' ' ++ b)
          (gap ml :: (s1 ++ ("fi".toList ++ r)))) = _
        unfold ifRest
        rw [if_pos (by rfl)]
        have e1' : next L (parser L m) (wordToken [.str "else".toList] "else".toList (List.replicate k ' ' ++ b)
          (gap ml :: (s1 ++ ("fi".toList ++ r)))) = some tk2 := e1
        rw [e1']
        simp only [Option.bind_eq_bind, Option.bind_some, e2, this]
    · obtain ⟨hc1, hc2, hc3⟩ := clauseParts_eq (h c (by simp))
      have hp : printClause L ml i false cs.isEmpty c buf =
          printElif L (clauseParts c).1 (clauseParts c).2 ml i (printIndent ml i buf ++ "elif".toList) := by
        apply printClause_elif
        cases cs with
        | cons _ _ => exact .inl rfl
        | nil =>
          cases c with
          | cond c l => exact .inr ⟨_, _, rfl⟩
          | els l => exact absurd ⟨rfl, l, rfl⟩ he
      obtain ⟨s1, h2, h3⟩ := cond_body hL hc1 hc2 ml i (printIndent ml i buf ++ "elif".toList)
      obtain ⟨s2, h4, h5⟩ := ih (fun c' hc' => h c' (by simp [hc'])) (printIndent ml i buf ++ "elif".toList ++ ' ' :: s1)
      refine ⟨List.replicate k ' ' ++ "elif".toList ++ ' ' :: s1 ++ s2, ?_, fun b r tk hr htk => ?_⟩
      · rw [printClauses, hp, printElif, h2, h4, h1]; simp
      · obtain ⟨tkc, hn1, hcl, hev⟩ := h5 (s1.reverse ++ ' ' :: ("elif".toList.reverse ++ (List.replicate k ' ' ++ b))) r tk hr
          (htk.cast (by simp) rfl)
        obtain ⟨tk0, ha0, hif⟩ := h3 (' ' :: ("elif".toList.reverse ++ (List.replicate k ' ' ++ b))) _ tkc hn1 hcl
        have hn3 := (NLs.keyword hL "elif".toList (by decide) (List.replicate k ' ' ++ b)
          (Sep.space (s1 ++ (s2 ++ 'i' :: r)))).spaces hL k
        refine ⟨_, hn3.cast rfl (by simp), rfl, ?_⟩
        refine ((ha0.space hL).two.and (hif cs tk hev)).mono fun m n ⟨e1, e2⟩ => ?_
        show ifRest L (parser L m) n (wordToken [.str "elif".toList] "elif".toList (List.replicate k ' ' ++ b)
          (' ' :: (s1 ++ (s2 ++ 'i' :: r)))) = _
        unfold ifRest
        rw [if_neg (by show ¬(reservedWord "elif".toList == _) = true; decide), if_pos (by rfl)]
        have e1' : next L (parser L m) (wordToken [.str "elif".toList] "elif".toList (List.replicate k ' ' ++ b)
          (' ' :: (s1 ++ (s2 ++ 'i' :: r)))) = some tk0 := e1
        rw [e1']
        simp only [Option.bind_eq_bind, Option.bind_some, e2, hc3]

def printIf (L : Locale) (cs : List IfClause) (ml : Bool) (i : Nat) (b : List Char) : List Char :=
  printIndent ml i (printClauses L ml i true cs b) ++ "fi".toList

theorem if_read {m : Nat} {tk tk1 tk2 : Token} {cs : List IfClause} (h0 : tk.type = .if) (h1 : next L (parser L m) tk = some tk1)
    (h2 : ifLoop L (parser L m) m tk1 = some (cs, tk2)) : compoundHead L (parser L m) tk = some (some (.ifs [] cs, tk2)) := by
  simp [compoundHead, h0, ifCommand, h1, parser_fuel, h2]

theorem head_if (hL : LocaleOk L) {c : IfClause} {cs : List IfClause} (h : ∀ x ∈ c :: cs, ClauseRT L x) :
    HeadRT L (printIf L (c :: cs)) (.ifs [] (c :: cs)) := by
  intro ml i buf
  obtain ⟨hc1, hc2, hc3⟩ := clauseParts_eq (h c (by simp))
  obtain ⟨s1, h2, h3⟩ := cond_body hL hc1 hc2 ml i (buf ++ "if".toList)
  obtain ⟨s2, h4, h5⟩ := if_tail hL cs (fun c' hc' => h c' (by simp [hc'])) ml i (buf ++ "if".toList ++ ' ' :: s1)
  refine ⟨'i' :: ('f' :: ' ' :: s1 ++ s2 ++ ['i']), ?_, Txt.of_last (by decide) (by decide), fun b r tk hr htk => ?_⟩
  · rw [printIf, printClauses, printClause_first, printElif, h2, h4]; simp
  · obtain ⟨tkc, hn1, hcl, hev⟩ := h5 (s1.reverse ++ ' ' :: ("if".toList.reverse ++ b)) r tk hr (htk.cast (by simp) rfl)
    obtain ⟨tk0, ha0, hif⟩ := h3 (' ' :: ("if".toList.reverse ++ b)) _ tkc hn1 hcl
    have ha1 := At.keyword hL "if".toList (by decide) b (Sep.space (s1 ++ (s2 ++ 'i' :: r)))
    refine ⟨_, ha1.cast rfl (by simp), ?_⟩
    refine (ha0.space hL).mono2 (hif cs tk hev).diag fun m e1 e2 => ?_
    rw [hc3] at e2
    exact if_read rfl e1 e2

end Yash.Parser
