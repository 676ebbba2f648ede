import Verif.Parser.Tokens
/-!
# Tokens that are words
-/
set_option autoImplicit false

namespace Yash.Parser

open Syntax Spec
open Expand (Locale)

variable {L : Locale}

/-- A word is read back as a token. -/
def TokWordRT (L : Locale) (w : Word) : Prop :=
  ∀ ml i buf, ∃ c s, printWord L ml i w buf = buf ++ c :: s ∧ isTokenDelimiter L c = false ∧ c ≠ '#' ∧
    (∀ r, Follow (isTokenDelimiter L) w r → lineCont (c :: s ++ r) = c :: s ++ r) ∧
    ∀ b r, Follow (isTokenDelimiter L) w r → Ev fun m =>
      parseWord (parser L m).special (isTokenDelimiter L) ⟨b, c :: s ++ r⟩ = some (w, ⟨(c :: s).reverse ++ b, r⟩)

/-- The texts of operators. -/
def opText : TokenType → Option (List Char)
  | .eoi => some []
  | .newline => some "\n".toList
  | .amp => some "&".toList
  | .ampamp => some "&&".toList
  | .lparen => some "(".toList
  | .rparen => some ")".toList
  | .semicolon => some ";".toList
  | .doubleSemicolon => some ";;".toList
  | .pipe => some "|".toList
  | .pipepipe => some "||".toList
  | .less => some "<".toList
  | .lessless => some "<<".toList
  | .lessamp => some "<&".toList
  | .lesslessdash => some "<<-".toList
  | .lesslessless => some "<<<".toList
  | .lessgreater => some "<>".toList
  | .lesslparen => some "<(".toList
  | .greater => some ">".toList
  | .greatergreater => some ">>".toList
  | .greatergreaterpipe => some ">>|".toList
  | .greaterpipe => some ">|".toList
  | .greateramp => some ">&".toList
  | .greaterlparen => some ">(".toList
  | _ => none

/-- What is known about a token that was read. -/
structure TokGood (L : Locale) (tk : Token) : Prop where
  nt : NT tk.src.rest
  word : tk.word ≠ [] → WordOk L tk.word → TokWordRT L tk.word
  strs : ∀ t, WordUnit.str t ∈ tk.word → t ≠ []
  type : tk.word ≠ [] → tk.type = reservedWordOf tk.word ∨ (tk.type = .ioNumber ∧ isDigitsOnly tk.word = true)
  text : ∀ t, tk.word = [.str t] → tk.text = t
  follow : tk.word ≠ [] → Follow (isTokenDelimiter L) tk.word tk.src.rest
  op : tk.word = [] → opText tk.type = some tk.text

theorem skipBlanks_result (b r : List Char) : (NT r → NT (skipBlanks L b r).rest) ∧
    lineCont (skipBlanks L b r).rest = (skipBlanks L b r).rest ∧ ∀ c ∈ (skipBlanks L b r).rest.head?, L.blank c = false := by
  induction hn : r.length using Nat.strongRecOn generalizing r b with
  | ind n ih =>
    cases r with
    | nil => simp [skipBlanks]
    | cons c r =>
      rcases lineCont_cases (c :: r) with h | ⟨t, h⟩
      · rw [skipBlanks_cons c b r h]
        by_cases hc : L.blank c = true
        · rw [if_pos hc]
          obtain ⟨h1, h2, h3⟩ := ih r.length (by subst hn; simp) (c :: b) r rfl
          exact ⟨fun hnt => h1 hnt.tail, h2, h3⟩
        · rw [if_neg hc]
          exact ⟨id, h, by simpa using hc⟩
      · rw [h, skipBlanks]
        obtain ⟨h1, h2, h3⟩ := ih t.length (by rw [h] at hn; subst hn; simp; omega) b t rfl
        exact ⟨fun hnt => h1 hnt.tail.tail, h2, h3⟩

theorem dropWhile_newline (r : List Char) : r.dropWhile (· ≠ '\n') = [] ∨ ∃ t, r.dropWhile (· ≠ '\n') = '\n' :: t := by
  induction r with
  | nil => simp
  | cons c r ih =>
    by_cases hc : c = '\n'
    · subst hc; simp
    · rw [List.dropWhile_cons_of_pos (by simp [hc])]
      exact ih

theorem skipComment_result {st : Src} (hnt : NT st.rest) (hn : lineCont st.rest = st.rest) (hb : ∀ c ∈ st.rest.head?, L.blank c = false) :
    NT (skipComment st).rest ∧ lineCont (skipComment st).rest = (skipComment st).rest ∧ (skipComment st).rest.head? ≠ some '#' ∧
      ((∀ c ∈ (skipComment st).rest.head?, L.blank c = false) ∨ (skipComment st).rest.head? = some '\n') := by
  obtain ⟨b, r⟩ := st
  unfold skipComment
  split
  · rename_i r' heq
    simp only at heq
    subst heq
    simp only
    have hnt' : NT (r'.dropWhile (· ≠ '\n')) := by
      have h1 := hnt.tail
      rw [← List.takeWhile_append_dropWhile (p := (· ≠ '\n')) (l := r')] at h1
      exact h1.drop
    rcases dropWhile_newline r' with h | ⟨t, h⟩
    · rw [h]; simp [NT.nil]
    · rw [h] at hnt' ⊢
      exact ⟨hnt', lineCont_id (by decide), by simp, .inr rfl⟩
  · rename_i h
    refine ⟨hnt, hn, ?_, .inl hb⟩
    intro he
    cases r with
    | nil => simp at he
    | cons c r =>
      simp at he
      subst he
      exact h r rfl

theorem token_op {t : TokenType} {text b r : List Char} (hr : NT r) (h : opText t = some text) : TokGood L (opToken t text b r) where
  nt := hr
  word := by simp [opToken]
  strs := by simp [opToken]
  type := by simp [opToken]
  text := by simp [opToken]
  follow := by simp [opToken]
  op := fun _ => h

theorem token_good {R : Rec} (hs : GoodSpecial L R.special) {st : Src} {tk : Token} (hnt : NT st.rest)
    (h : nextToken L R.special st = some tk) : TokGood L tk := by
  obtain ⟨h1, h2, h3⟩ := skipBlanks_result (L := L) st.before st.rest
  obtain ⟨h4, h5, h6, h7⟩ := skipComment_result (h1 hnt) h2 h3
  simp only [nextToken] at h
  generalize skipComment (skipBlanks L st.before st.rest) = st' at *
  obtain ⟨b, r⟩ := st'
  cases r with
  | nil =>
    simp [tokenAt] at h
    subst h
    exact ⟨NT.nil, by simp, by simp, by simp, by simp, by simp, by simp [opText]⟩
  | cons c r =>
    simp only at h4 h5 h6 h7
    have hr := h4.tail
    have hrl := hr.lineCont
    simp only [tokenAt] at h
    split at h
    · rename_i hc
      simp at hc
      subst hc
      cases h
      exact token_op hr rfl
    rename_i hc1
    split at h
    · rename_i hc
      simp at hc
      subst hc
      cases h
      exact token_op hr rfl
    rename_i hc2
    split at h
    · rename_i hc
      simp at hc
      subst hc
      cases h
      exact token_op hr rfl
    rename_i hc3
    split at h
    · split at h <;> rename_i heq <;> cases h
      · rw [heq] at hrl
        exact token_op hrl.tail rfl
      · exact token_op hrl rfl
    rename_i hc4
    split at h
    · split at h <;> rename_i heq <;> cases h
      · rw [heq] at hrl
        exact token_op hrl.tail rfl
      · exact token_op hrl rfl
    rename_i hc5
    split at h
    · split at h <;> rename_i heq <;> cases h
      · rw [heq] at hrl
        exact token_op hrl.tail rfl
      · exact token_op hrl rfl
    rename_i hc6
    split at h
    · split at h
      · rename_i heq; cases h; rw [heq] at hrl
        exact token_op hrl.tail rfl
      · rename_i heq; cases h; rw [heq] at hrl
        exact token_op hrl.tail rfl
      · rename_i heq; cases h; rw [heq] at hrl
        exact token_op hrl.tail rfl
      · rename_i r1 heq
        rw [heq] at hrl
        have hrl2 := hrl.tail.lineCont
        split at h
        · rename_i heq; cases h; rw [heq] at hrl2
          exact token_op hrl2.tail rfl
        · rename_i heq; cases h; rw [heq] at hrl2
          exact token_op hrl2.tail rfl
        · cases h
          exact token_op hrl2 rfl
      · cases h
        exact token_op hrl rfl
    rename_i hc7
    split at h
    · split at h
      · rename_i heq; cases h; rw [heq] at hrl
        exact token_op hrl.tail rfl
      · rename_i heq; cases h; rw [heq] at hrl
        exact token_op hrl.tail rfl
      · rename_i heq; cases h; rw [heq] at hrl
        exact token_op hrl.tail rfl
      · rename_i r1 heq
        rw [heq] at hrl
        have hrl2 := hrl.tail.lineCont
        split at h
        · rename_i heq; cases h; rw [heq] at hrl2
          exact token_op hrl2.tail rfl
        · cases h
          exact token_op hrl2 rfl
      · cases h
        exact token_op hrl rfl
    rename_i hc8
    have hcd : isTokenDelimiter L c = false := by
      simp at hc1 hc2 hc3 hc4 hc5 hc6 hc7 hc8
      have : L.blank c = false := by
        rcases h7 with h7 | h7
        · exact h7 c (by simp)
        · simp at h7; exact absurd h7 hc1
      simp [isTokenDelimiter, hc1, hc2, hc3, hc4, hc5, hc6, hc7, hc8, this]
    split at h
    · cases h
    rename_i w st1 hw
    cases h
    have hw' := parse_word hs h4 hw
    have hwne : w ≠ [] := by
      intro he
      have h8 := (hw'.nil he).2
      rw [h5] at h8
      have h9 := (hw'.follow.2 c (by rw [h8]; simp)).1
      rw [hcd] at h9
      cases h9
    refine ⟨hw'.nt, ?_, hw'.strs, ?_, ?_, fun _ => hw'.follow, fun he => absurd he hwne⟩
    · intro _ hok ml i buf
      obtain ⟨s, e1, e2, e3, e4, e5⟩ := (hw'.rt hok).parse ml i buf
      cases s with
      | nil => exact absurd (e2 rfl) hwne
      | cons d s =>
        have := e3 (by simp)
        rw [h5] at this
        simp at this
        subst this
        exact ⟨d, s, e1, hcd, by simpa using h6, e4, e5⟩
    · intro _
      simp only
      split
      · rename_i hd
        simp only [Bool.and_eq_true] at hd
        exact .inr ⟨rfl, hd.2⟩
      · exact .inl rfl
    · intro t ht
      obtain ⟨t', e1, e2⟩ := hw'.text t ht
      simp at e1
      subst e1
      simp [e2]

/-! ## Reading words as tokens -/

theorem delimiter_ops {c : Char} (h : isTokenDelimiter L c = false) :
    c ≠ '\n' ∧ c ≠ ';' ∧ c ≠ '&' ∧ c ≠ '|' ∧ c ≠ '<' ∧ c ≠ '>' ∧ c ≠ '(' ∧ c ≠ ')' ∧ L.blank c = false := by
  simp [isTokenDelimiter] at h
  simpa [and_assoc] using h

theorem tokenAt_word (special : Special) {b : List Char} {c : Char} {r : List Char} (hc : isTokenDelimiter L c = false) {w : Word} {st : Src}
    (h : parseWord special (isTokenDelimiter L) ⟨b, c :: r⟩ = some (w, st)) : tokenAt L special ⟨b, c :: r⟩ =
      some {
        type :=
          if (st.rest.head? == some '<' || st.rest.head? == some '>') && isDigitsOnly w then .ioNumber
          else reservedWordOf w
        word := w
        text := (st.before.take (st.before.length - b.length)).reverse
        src := st } := by
  obtain ⟨h1, h2, h3, h4, h5, h6, h7, h8, _⟩ := delimiter_ops hc
  simp only [tokenAt]
  rw [if_neg (by simpa using h1), if_neg (by simpa using h7), if_neg (by simpa using h8), if_neg (by simpa using h2),
    if_neg (by simpa using h3), if_neg (by simpa using h4), if_neg (by simpa using h5), if_neg (by simpa using h6), h]

/-- A word token. -/
def wordToken (w : Word) (s b r : List Char) : Token :=
  { type := reservedWordOf w, word := w, text := s, src := ⟨s.reverse ++ b, r⟩ }

theorem take_before (t b : List Char) : ((t.reverse ++ b).take ((t.reverse ++ b).length - b.length)).reverse = t := by
  rw [show (t.reverse ++ b).length - b.length = t.reverse.length by simp]
  simp

theorem TokWordRT.at {w : Word} (hw : TokWordRT L w) (ml : Bool) (i : Nat) (buf : List Char) :
    ∃ c s, printWord L ml i w buf = buf ++ c :: s ∧ isTokenDelimiter L c = false ∧ c ≠ '#' ∧
    (∀ r, Follow (isTokenDelimiter L) w r → lineCont (c :: s ++ r) = c :: s ++ r) ∧
    ∀ b r, Follow (isTokenDelimiter L) w r →
      (r.head? ≠ some '<' ∧ r.head? ≠ some '>' → At L b (c :: s ++ r) (wordToken w (c :: s) b r)) ∧
      (r.head? = some '<' ∨ r.head? = some '>' → isDigitsOnly w = true → At L b (c :: s ++ r)
        { type := .ioNumber, word := w, text := c :: s, src := ⟨(c :: s).reverse ++ b, r⟩ }) := by
  obtain ⟨c, s, h1, h2, h3, h4, h5⟩ := hw ml i buf
  refine ⟨c, s, h1, h2, h3, h4, fun b r hr => ⟨fun hh => ?_, fun hh hd => ?_⟩⟩
  · refine (h5 b r hr).mono fun m e => ?_
    have h6 := h4 r hr
    rw [List.cons_append] at e h6 ⊢
    rw [nextToken_at _ _ h6 (delimiter_ops h2).2.2.2.2.2.2.2.2 h3, tokenAt_word _ h2 e]
    simp only
    rw [if_neg (by simp [hh.1, hh.2]), take_before]
    rfl
  · refine (h5 b r hr).mono fun m e => ?_
    have h6 := h4 r hr
    rw [List.cons_append] at e h6 ⊢
    rw [nextToken_at _ _ h6 (delimiter_ops h2).2.2.2.2.2.2.2.2 h3, tokenAt_word _ h2 e]
    simp only
    rw [if_pos (by simp [hh, hd]), take_before]

/-- Characters that stand for themselves in a word. -/
def Plain (L : Locale) (c : Char) : Prop := isTokenDelimiter L c = false ∧ c ∉ "\\$`'\"".toList

theorem Plain.wordRT (s : List Char) (hs : ∀ c ∈ s, Plain L c) (acc : List Char) :
    WordRT L (isTokenDelimiter L) false acc s.head? (stringUnit (acc ++ s)) := by
  induction s generalizing acc with
  | nil => rw [List.append_nil]; exact WordRT.done _ _ _
  | cons c s ih =>
    have hc := hs c (by simp)
    have h2 := hc.2
    simp at h2
    have := ih (fun d hd => hs d (by simp [hd])) (acc ++ [c])
    rw [List.append_assoc] at this
    refine WordRT.step [c] (by simp) this (fun t _ => lineCont_id h2.1) fun sp k b t _ => ?_
    rw [parseWordLoop]
    simp only [List.cons_append, List.nil_append]
    rw [lineCont_id h2.1]
    simp only
    rw [if_neg (by simp [hc.1]), if_neg (by simp [h2.1]), if_neg (by simp [h2.2.1, h2.2.2.1]), if_neg (by simp [h2.2.2.2.1]),
      if_neg (by simp [h2.2.2.2.2])]
    rfl

theorem Plain.tokWordRT {c : Char} {s : List Char} (hs : ∀ d ∈ c :: s, Plain L d) (hc : c ≠ '#') : TokWordRT L [.str (c :: s)] := by
  have := Plain.wordRT (c :: s) hs []
  simp only [List.nil_append, stringUnit, List.isEmpty_cons, Bool.false_eq_true, if_false] at this
  intro ml i buf
  obtain ⟨t, h1, h2, h3, h4, h5⟩ := this.parse ml i buf
  have ht : t = c :: s := by
    simp only [printWord, printUnit] at h1
    exact (List.append_cancel_left h1).symm
  subst ht
  exact ⟨c, s, h1, (hs c (by simp)).1, hc, h4, h5⟩

/-- A string of plain characters is read as a token. -/
theorem Plain.at {c : Char} {s : List Char} (hs : ∀ d ∈ c :: s, Plain L d) (hc : c ≠ '#') (b r : List Char)
    (hr : Follow (isTokenDelimiter L) [.str (c :: s)] r) :
    (r.head? ≠ some '<' ∧ r.head? ≠ some '>' → At L b (c :: s ++ r) (wordToken [.str (c :: s)] (c :: s) b r)) ∧
    (r.head? = some '<' ∨ r.head? = some '>' → (c :: s).all isDigitChar = true → At L b (c :: s ++ r)
        { type := .ioNumber, word := [.str (c :: s)], text := c :: s, src := ⟨(c :: s).reverse ++ b, r⟩ }) := by
  obtain ⟨d, t, h1, h2, h3, h4, h5⟩ := (Plain.tokWordRT hs hc).at false 0 []
  simp only [printWord, printUnit, List.nil_append] at h1
  cases h1
  obtain ⟨e1, e2⟩ := h5 b r hr
  refine ⟨e1, fun hh hd => e2 hh (by simpa [isDigitsOnly, singleString] using hd)⟩

theorem Plain.alnum (hL : LocaleOk L) {c : Char} (h : L.alnum c = true) : Plain L c := by
  have hne : ∀ d ∈ "'\"\\$`;&|<>()~#*?[]{},:=!^\n+@%".toList, c ≠ d := by
    intro d hd he
    subst he
    rw [hL.ok.alnum_special c hd] at h
    cases h
  refine ⟨?_, ?_⟩
  · have hb := hL.ok.alnum_blank c h
    simp only [isTokenDelimiter, hb, Bool.or_false, Bool.or_eq_false_iff, beq_eq_false_iff_ne]
    exact ⟨⟨⟨⟨⟨⟨⟨hne _ (by decide), hne _ (by decide)⟩, hne _ (by decide)⟩, hne _ (by decide)⟩, hne _ (by decide)⟩, hne _ (by decide)⟩,
      hne _ (by decide)⟩, hne _ (by decide)⟩
  · intro hc
    exact hne c (by
      have : ∀ d ∈ "\\$`'\"".toList, d ∈ "'\"\\$`;&|<>()~#*?[]{},:=!^\n+@%".toList := by decide
      exact this c hc) rfl

theorem Plain.punct (hL : LocaleOk L) {c : Char} (h : c ∈ "{}[]!_=-~".toList) : Plain L c := by
  refine ⟨?_, ?_⟩
  · have hb : L.blank c = false := punct_blank hL (by
      have : ∀ d ∈ "{}[]!_=-~".toList, d ∈ "'\"\\$`;&|<>()~#*?[]{},:=!^+@%.-_/".toList := by decide
      exact this c h)
    have : ∀ d ∈ "{}[]!_=-~".toList, d ≠ '\n' ∧ d ≠ ';' ∧ d ≠ '&' ∧ d ≠ '|' ∧ d ≠ '<' ∧ d ≠ '>' ∧ d ≠ '(' ∧ d ≠ ')' := by decide
    have := this c h
    simp [isTokenDelimiter, this, hb]
  · have : ∀ d ∈ "{}[]!_=-~".toList, d ∉ "\\$`'\"".toList := by decide
    exact this c h

/-- The text after a command. -/
def Sep (r : List Char) : Prop := ∀ d ∈ r.head?, d ∈ " \n;&)".toList

theorem Sep.follow (hL : LocaleOk L) {r : List Char} (h : Sep r) (w : Word) :
    Follow (isTokenDelimiter L) w r ∧ r.head? ≠ some '<' ∧ r.head? ≠ some '>' ∧ r.head? ≠ some '(' ∧ lineCont r = r := by
  cases r with
  | nil => simp [Follow.nil]
  | cons d r =>
    have hd := h d (by simp)
    have : ∀ d ∈ " \n;&)".toList, d ≠ '\\' ∧ startsParam d = false ∧ d ≠ '<' ∧ d ≠ '>' ∧ d ≠ '(' := by decide
    obtain ⟨h1, h2, h3, h4, h5⟩ := this d hd
    refine ⟨Follow.cons ?_ h1 h2, by simpa using h3, by simpa using h4, by simpa using h5, lineCont_id h1⟩
    simp at hd
    rcases hd with rfl | rfl | rfl | rfl | rfl <;> simp [isTokenDelimiter, hL.space]

theorem Sep.space (r : List Char) : Sep (' ' :: r) := by intro d hd; simp at hd; subst hd; decide
theorem Sep.newline (r : List Char) : Sep ('\n' :: r) := by intro d hd; simp at hd; subst hd; decide
theorem Sep.semi (r : List Char) : Sep (';' :: r) := by intro d hd; simp at hd; subst hd; decide
theorem Sep.amp (r : List Char) : Sep ('&' :: r) := by intro d hd; simp at hd; subst hd; decide
theorem Sep.rparen (r : List Char) : Sep (')' :: r) := by intro d hd; simp at hd; subst hd; decide
theorem Sep.nil : Sep [] := by intro d hd; simp at hd

/-- Characters that keywords consist of. -/
def isKeywordChar (c : Char) : Bool := (decide ('a' ≤ c) && decide (c ≤ 'z')) || c == '{' || c == '}' || c == '[' || c == ']' || c == '!'

theorem Plain.keyword (hL : LocaleOk L) {c : Char} (h : isKeywordChar c = true) : Plain L c ∧ c ≠ '#' := by
  simp [isKeywordChar] at h
  rcases h with ((((⟨h1, h2⟩ | rfl) | rfl) | rfl) | rfl) | rfl
  · refine ⟨Plain.alnum hL (hL.lower c h1 h2), ?_⟩
    rintro rfl
    exact absurd h1 (by decide)
  all_goals exact ⟨Plain.punct hL (by decide), by decide⟩

/-- A keyword before a separator. -/
theorem At.keyword (hL : LocaleOk L) (k : List Char) (hk : k ≠ [] ∧ k.all isKeywordChar = true) (b : List Char) {r : List Char} (hr : Sep r) :
    At L b (k ++ r) (wordToken [.str k] k b r) := by
  cases k with
  | nil => exact absurd rfl hk.1
  | cons c s =>
    have hp : ∀ d ∈ c :: s, Plain L d ∧ d ≠ '#' := fun d hd => Plain.keyword hL (List.all_eq_true.1 hk.2 d hd)
    have hf := hr.follow hL [.str (c :: s)]
    exact (Plain.at (fun d hd => (hp d hd).1) (hp c (by simp)).2 b r hf.1).1 ⟨hf.2.1, hf.2.2.1⟩

end Yash.Parser
