import Verif.Parser.Brace
/-!
# Tokens are read back
-/
set_option autoImplicit false

namespace Yash.Parser

open Syntax Spec
open Expand (Locale)

variable {L : Locale}

/-! ## Unbraced parameters -/

theorem plainParam_RT {n : List Char} {h : Option Char} (hn : BaseRT L (.name n) h) : UnitRT L (plainParam n) := by
  intro ml i buf
  obtain ⟨c, t, h1, h2, h3, h4, h5⟩ := hn ml i (buf ++ "${".toList)
  refine ⟨'{', c :: t ++ ['}'], ?_, .inl rfl, ?_⟩
  · rw [plainParam, printUnit, printParam_eq]
    simp only [printIdx, printMod]
    rw [show (if ({} : ParamType).number = true then ['#'] else []) = ([] : List Char) from rfl, List.append_nil, h1]
    simp
  · intro b r indq
    refine Ev.succ ?_
    refine (h5 ('{' :: '$' :: b) ('}' :: r) (lineCont_id (by decide)) (by simp; decide)).mono fun m e => ?_
    rw [special_eq]
    simp only [List.cons_append, special]
    rw [lineCont_id (by decide)]
    simp only [brace, Option.bind_eq_bind]
    have hnm : numberMark ('{' :: '$' :: b) (c :: (t ++ ['}'] ++ r)) = (false, ⟨'{' :: '$' :: b, c :: t ++ '}' :: r⟩) := by
      by_cases hc : c = '#'
      · subst hc
        have := (h3 (.inr (.inr rfl))).2
        subst this
        simp only [List.nil_append, List.cons_append]
        rw [numberMark_sharp _ (lineCont_id (by decide)), if_pos (by decide)]
      · rw [numberMark_other (lineCont_id h2) (by simpa using hc)]
        simp
    rw [hnm]
    simp only [e, Option.bind_some]
    have : paramIndex (parser L m) ⟨(c :: t).reverse ++ '{' :: '$' :: b, '}' :: r⟩ = some ([], [], ⟨(c :: t).reverse ++ '{' :: '$' :: b, '}' :: r⟩) := by
      rfl
    rw [this]
    simp only [Option.bind_some]
    have : paramColon ⟨(c :: t).reverse ++ '{' :: '$' :: b, '}' :: r⟩ = (false, ⟨(c :: t).reverse ++ '{' :: '$' :: b, '}' :: r⟩) := rfl
    rw [this]
    simp [paramMod, plainParam]

theorem portable_name (hL : LocaleOk L) {c : Char} (h : isPortableNameChar c = true) : isNameChar L c = true := by
  simp [isPortableNameChar, isDigitChar] at h
  rcases h with ((⟨h1, h2⟩ | ⟨h1, h2⟩) | ⟨h1, h2⟩) | rfl
  · simp [isNameChar, hL.digit c h1 h2]
  · simp [isNameChar, hL.lower c h1 h2]
  · simp [isNameChar, hL.upper c h1 h2]
  · simp [isNameChar]

theorem rawParam_RT (hL : LocaleOk L) {b r : List Char} {u : WordUnit} {st : Src} (hnt : NT r)
    (h : rawParam b r = (some u, st)) : NT st.rest ∧ (∀ t, u ≠ .str t) ∧ UnitRT L u := by
  unfold rawParam at h
  have hnt := hnt.lineCont
  have hn := lineCont_idem r
  split at h
  · cases h
  rename_i c r1 hr1
  rw [hr1] at hnt hn
  split at h
  · rename_i hc
    cases h
    refine ⟨hnt.tail, by simp [plainParam], ?_⟩
    by_cases hs : isSpecialParam c = true
    · have hb : c ≠ '\\' := by rintro rfl; exact absurd hs (by decide)
      have := param_name hL (b := []) (r := [c]) (base := .name [c]) (st := ⟨[c], []⟩)
        (by simpa [NT] using hb) (lineCont_id hb) (by simp [paramName, hs])
      exact plainParam_RT this.2.2
    · have hd : isDigitChar c = true := by simpa [hs] using hc
      have hb : c ≠ '\\' := by rintro rfl; exact absurd hd (by decide)
      have hp : isNameChar L c = true := portable_name hL (by simp [isPortableNameChar, hd])
      have := param_name hL (b := []) (r := [c]) (base := .name [c]) (st := ⟨[c], []⟩)
        (by simpa [NT] using hb) (lineCont_id hb) (by
          simp only [paramName]
          rw [if_neg hs, takeName_cons _ (lineCont_id hb), if_pos hp, takeName_nil]
          rfl)
      exact plainParam_RT this.2.2
  · rename_i hc
    split at h
    · rename_i hp
      cases h
      obtain ⟨h1, h2, h3, h4⟩ := takeName_result isPortableNameChar (c :: r1)
      have hb : c ≠ '\\' := by rintro rfl; exact absurd hp (by decide)
      refine ⟨h2 hnt, by simp [plainParam], ?_⟩
      generalize hT : (takeName isPortableNameChar (c :: r1)).1 = n at h1
      have hnc : ∃ n', n = c :: n' := by
        rw [takeName_cons _ (lineCont_id hb), if_pos hp] at hT
        exact ⟨_, hT.symm⟩
      obtain ⟨n', rfl⟩ := hnc
      have hcs : isSpecialParam c = false := by
        cases hx : isSpecialParam c with
        | false => rfl
        | true => simp [hx] at hc
      have hnn : ∀ d ∈ c :: n', isNameChar L d = true := fun d hd => portable_name hL (h1 d hd)
      have ht := takeName_text (isNameChar L) (isNameChar_alnum hL (by decide)) (c :: n') [] hnn (by simp) (by simp)
      have hnt' : NT (c :: n') := by
        intro hl
        have := List.mem_of_getLast? hl
        have := hnn _ this
        rw [isNameChar_alnum hL (by decide)] at this
        cases this
      have := param_name hL (b := []) (r := c :: n') (base := .name (c :: n')) (st := ⟨(c :: n').reverse ++ [], []⟩)
        hnt' (lineCont_id hb) (by
          simp only [paramName]
          rw [if_neg (by simp [hcs])]
          simp only [List.append_nil] at ht
          rw [ht]
          )
      exact plainParam_RT this.2.2
    · cases h

/-! ## Reading tokens -/

/-- The next token is this one. -/
def At (L : Locale) (b r : List Char) (tk : Token) : Prop := Ev fun m => nextToken L (parser L m).special ⟨b, r⟩ = some tk

theorem skipBlanks_cons (c : Char) (b r : List Char) (hn : lineCont (c :: r) = c :: r) :
    skipBlanks L b (c :: r) = if L.blank c then skipBlanks L (c :: b) r else ⟨b, c :: r⟩ := by
  rw [skipBlanks.eq_def]
  split
  · rename_i heq
    cases heq
    exact absurd rfl (normal_bs hn)
  · rename_i heq
    cases heq
    rfl
  · rename_i heq
    cases heq

theorem skipBlanks_word (c : Char) (b r : List Char) (hn : lineCont (c :: r) = c :: r) (hb : L.blank c = false) :
    skipBlanks L b (c :: r) = ⟨b, c :: r⟩ := by
  rw [skipBlanks_cons c b r hn, if_neg (by simp [hb])]

theorem skipComment_other (st : Src) (h : st.rest.head? ≠ some '#') : skipComment st = st := by
  unfold skipComment
  split
  · rename_i heq
    rw [heq] at h
    exact absurd rfl h
  · rfl

theorem nextToken_at (special : Special) (b : List Char) {c : Char} {r : List Char} (hn : lineCont (c :: r) = c :: r)
    (hb : L.blank c = false) (hc : c ≠ '#') : nextToken L special ⟨b, c :: r⟩ = tokenAt L special ⟨b, c :: r⟩ := by
  simp only [nextToken]
  rw [skipBlanks_word c b r hn hb, skipComment_other _ (by simpa using hc)]

theorem At.space (hL : LocaleOk L) {b r : List Char} {tk : Token} (h : At L (' ' :: b) r tk) : At L b (' ' :: r) tk := by
  refine h.mono fun m e => ?_
  rw [← e]
  simp only [nextToken]
  rw [skipBlanks_cons ' ' b r (lineCont_id (by decide)), if_pos hL.space]

theorem At.spaces (hL : LocaleOk L) (n : Nat) {b r : List Char} {tk : Token} (h : At L (List.replicate n ' ' ++ b) r tk) :
    At L b (List.replicate n ' ' ++ r) tk := by
  induction n generalizing b with
  | zero => simpa using h
  | succ n ih =>
    rw [List.replicate_succ, List.cons_append]
    refine At.space hL (ih ?_)
    rwa [List.replicate_succ', List.append_assoc] at h

theorem At.eoi (b : List Char) : At L b [] { type := .eoi, src := ⟨b, []⟩ } :=
  .of fun m => by simp [nextToken, skipBlanks, skipComment, tokenAt]

theorem punct_blank (hL : LocaleOk L) {c : Char} (h : c ∈ "'\"\\$`;&|<>()~#*?[]{},:=!^+@%.-_/".toList) : L.blank c = false :=
  hL.ok.punct_blank c h

theorem At.newline (hL : LocaleOk L) (b r : List Char) : At L b ('\n' :: r) (opToken .newline ['\n'] b r) :=
  .of fun m => by
    rw [nextToken_at _ _ (lineCont_id (by decide)) hL.newline (by decide)]
    rfl

theorem At.lparen (hL : LocaleOk L) (b r : List Char) : At L b ('(' :: r) (opToken .lparen ['('] b r) :=
  .of fun m => by
    rw [nextToken_at _ _ (lineCont_id (by decide)) (punct_blank hL (by decide)) (by decide)]
    rfl

theorem At.rparen (hL : LocaleOk L) (b r : List Char) : At L b (')' :: r) (opToken .rparen [')'] b r) :=
  .of fun m => by
    rw [nextToken_at _ _ (lineCont_id (by decide)) (punct_blank hL (by decide)) (by decide)]
    rfl

theorem At.semicolon (hL : LocaleOk L) (b : List Char) {r : List Char} (hn : lineCont r = r) (h : r.head? ≠ some ';') :
    At L b (';' :: r) (opToken .semicolon [';'] b r) :=
  .of fun m => by
    rw [nextToken_at _ _ (lineCont_id (by decide)) (punct_blank hL (by decide)) (by decide)]
    simp only [tokenAt]
    rw [if_neg (by decide), if_neg (by decide), if_neg (by decide), if_pos (by decide), hn]
    split
    · simp at h
    · rfl

theorem At.dsemi (hL : LocaleOk L) (b r : List Char) : At L b (';' :: ';' :: r) (opToken .doubleSemicolon ";;".toList b r) :=
  .of fun m => by
    rw [nextToken_at _ _ (lineCont_id (by decide)) (punct_blank hL (by decide)) (by decide)]
    simp only [tokenAt]
    rw [if_neg (by decide), if_neg (by decide), if_neg (by decide), if_pos (by decide), lineCont_id (by decide)]
    rfl

theorem At.amp (hL : LocaleOk L) (b : List Char) {r : List Char} (hn : lineCont r = r) (h : r.head? ≠ some '&') :
    At L b ('&' :: r) (opToken .amp ['&'] b r) :=
  .of fun m => by
    rw [nextToken_at _ _ (lineCont_id (by decide)) (punct_blank hL (by decide)) (by decide)]
    simp only [tokenAt]
    rw [if_neg (by decide), if_neg (by decide), if_neg (by decide), if_neg (by decide), if_pos (by decide), hn]
    split
    · simp at h
    · rfl

theorem At.ampamp (hL : LocaleOk L) (b r : List Char) : At L b ('&' :: '&' :: r) (opToken .ampamp "&&".toList b r) :=
  .of fun m => by
    rw [nextToken_at _ _ (lineCont_id (by decide)) (punct_blank hL (by decide)) (by decide)]
    simp only [tokenAt]
    rw [if_neg (by decide), if_neg (by decide), if_neg (by decide), if_neg (by decide), if_pos (by decide), lineCont_id (by decide)]
    rfl

theorem At.pipe (hL : LocaleOk L) (b : List Char) {r : List Char} (hn : lineCont r = r) (h : r.head? ≠ some '|') :
    At L b ('|' :: r) (opToken .pipe ['|'] b r) :=
  .of fun m => by
    rw [nextToken_at _ _ (lineCont_id (by decide)) (punct_blank hL (by decide)) (by decide)]
    simp only [tokenAt]
    rw [if_neg (by decide), if_neg (by decide), if_neg (by decide), if_neg (by decide), if_neg (by decide), if_pos (by decide), hn]
    split
    · simp at h
    · rfl

theorem At.pipepipe (hL : LocaleOk L) (b r : List Char) : At L b ('|' :: '|' :: r) (opToken .pipepipe "||".toList b r) :=
  .of fun m => by
    rw [nextToken_at _ _ (lineCont_id (by decide)) (punct_blank hL (by decide)) (by decide)]
    simp only [tokenAt]
    rw [if_neg (by decide), if_neg (by decide), if_neg (by decide), if_neg (by decide), if_neg (by decide), if_pos (by decide),
      lineCont_id (by decide)]
    rfl

/-- The operator of a redirection, before an operand or a parenthesis. -/
def redirToken : FileRedir → TokenType
  | .input => .less
  | .output => .greater
  | .clobber => .greaterpipe
  | .append => .greatergreater
  | .inout => .lessgreater
  | .dupin => .lessamp
  | .dupout => .greateramp
  | .pipe => .greatergreaterpipe
  | .herestr => .lesslessless

theorem At.redir (hL : LocaleOk L) (t : FileRedir) (b : List Char) {r : List Char} (hn : lineCont r = r)
    (h : ∀ c ∈ r.head?, c ∉ "<>(&|".toList) :
    At L b (redirOp t ++ r) (opToken (redirToken t) (redirOp t) b r) := by
  have h1 : ∀ c r', r = c :: r' → c ≠ '<' ∧ c ≠ '>' ∧ c ≠ '(' ∧ c ≠ '&' ∧ c ≠ '|' := by
    intro c r' hr
    have := h c (by simp [hr])
    simp at this
    exact this
  cases t <;> refine .of fun m => ?_ <;> simp only [redirOp, redirToken]
  all_goals
    first
    | rw [show "<".toList ++ r = '<' :: r from rfl]
    | rw [show ">".toList ++ r = '>' :: r from rfl]
    | rw [show ">|".toList ++ r = '>' :: '|' :: r from rfl]
    | rw [show ">>".toList ++ r = '>' :: '>' :: r from rfl]
    | rw [show "<>".toList ++ r = '<' :: '>' :: r from rfl]
    | rw [show "<&".toList ++ r = '<' :: '&' :: r from rfl]
    | rw [show ">&".toList ++ r = '>' :: '&' :: r from rfl]
    | rw [show ">>|".toList ++ r = '>' :: '>' :: '|' :: r from rfl]
    | rw [show "<<<".toList ++ r = '<' :: '<' :: '<' :: r from rfl]
    rw [nextToken_at _ _ (lineCont_id (by decide)) (punct_blank hL (by decide)) (by decide)]
    simp only [tokenAt]
    repeat rw [if_neg (by decide)]
    rw [if_pos (by decide)]
  · rw [hn]
    split
    · exact absurd rfl (h1 _ _ rfl).2.1
    · exact absurd rfl (h1 _ _ rfl).2.2.1
    · exact absurd rfl (h1 _ _ rfl).2.2.2.1
    · exact absurd rfl (h1 _ _ rfl).1
    · rfl
  · rw [hn]
    split
    · exact absurd rfl (h1 _ _ rfl).2.2.1
    · exact absurd rfl (h1 _ _ rfl).2.2.2.1
    · exact absurd rfl (h1 _ _ rfl).2.2.2.2
    · exact absurd rfl (h1 _ _ rfl).2.1
    · rfl
  · rw [lineCont_id (by decide)]
    rfl
  · rw [lineCont_id (by decide)]
    simp only [hn]
    split
    · exact absurd rfl (h1 _ _ rfl).2.2.2.2
    · rfl
  · rw [lineCont_id (by decide)]
    rfl
  · rw [lineCont_id (by decide)]
    rfl
  · rw [lineCont_id (by decide)]
    rfl
  · rw [lineCont_id (by decide)]
    simp only
    rw [lineCont_id (by decide)]
    rfl
  · rw [lineCont_id (by decide)]
    simp only
    rw [lineCont_id (by decide)]
    rfl

theorem At.lesslparen (hL : LocaleOk L) (b r : List Char) : At L b ('<' :: '(' :: r) (opToken .lesslparen "<(".toList b r) :=
  .of fun m => by
    rw [nextToken_at _ _ (lineCont_id (by decide)) (punct_blank hL (by decide)) (by decide)]
    simp only [tokenAt]
    repeat rw [if_neg (by decide)]
    rw [if_pos (by decide), lineCont_id (by decide)]
    rfl

theorem At.greaterlparen (hL : LocaleOk L) (b r : List Char) : At L b ('>' :: '(' :: r) (opToken .greaterlparen ">(".toList b r) :=
  .of fun m => by
    rw [nextToken_at _ _ (lineCont_id (by decide)) (punct_blank hL (by decide)) (by decide)]
    simp only [tokenAt]
    repeat rw [if_neg (by decide)]
    rw [if_pos (by decide), lineCont_id (by decide)]
    rfl

end Yash.Parser
