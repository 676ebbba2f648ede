import Verif.Parser.Items
/-!
# Simple commands are read back
-/
set_option autoImplicit false

namespace Yash.Parser

open Syntax Spec
open Expand (Locale)

variable {L : Locale}

theorem reservedWord_word {s : List Char} (h : s ∉ keywords) : reservedWord s = .word := by
  unfold reservedWord
  repeat rw [if_neg (fun e => h (by rw [e]; decide))]

theorem reservedWord_keyword {s : List Char} (h : s ∈ keywords) :
    reservedWord s ≠ .word ∧ isRedirTok (reservedWord s) = false ∧ opText (reservedWord s) = none := by
  have : ∀ s ∈ keywords, reservedWord s ≠ .word ∧ isRedirTok (reservedWord s) = false ∧ opText (reservedWord s) = none := by decide
  exact this s h

/-- The type of a word token is that of a word or of a keyword. -/
theorem reservedWordOf_type (w : Word) : isRedirTok (reservedWordOf w) = false ∧ opText (reservedWordOf w) = none := by
  unfold reservedWordOf
  split
  · rename_i s _
    by_cases h : s ∈ keywords
    · exact (reservedWord_keyword h).2
    · rw [reservedWord_word h]; decide
  · decide

theorem reservedWordOf_keyword (w : Word) : Keyword w ↔ reservedWordOf w ≠ .word := by
  unfold reservedWordOf singleString
  constructor
  · rintro ⟨s, hs, rfl⟩
    exact (reservedWord_keyword hs).1
  · intro h
    split at h
    · rename_i s heq
      split at heq
      · cases heq
        by_cases hs : s ∈ keywords
        · exact ⟨s, hs, rfl⟩
        · exact absurd (reservedWord_word hs) h
      · cases heq
    · exact absurd rfl h

/-- A word that is read back as a token. -/
structure ItemWord (L : Locale) (w : Word) : Prop where
  rt : TokWordRT L w
  ne : w ≠ []
  strs : ∀ t, WordUnit.str t ∈ w → t ≠ []

theorem TokGood.item {tk : Token} (h : TokGood L tk) (hne : tk.word ≠ []) (hok : WordOk L tk.word) : ItemWord L tk.word :=
  ⟨h.word hne hok, hne, h.strs⟩

/-- The token after a simple command. -/
structure EndTok (tk : Token) : Prop where
  word : tk.word = []
  redir : isRedirTok tk.type = false
  lparen : tk.type ≠ .lparen

/-! ## Lists of words -/

theorem printWords_for (ml : Bool) (i : Nat) (ws : List Word) (b : List Char) :
    printWords L ml i ws (b ++ [' ']) = printForWords L ml i ws b ++ [' '] := by
  induction ws generalizing b with
  | nil => simp [printWords, printForWords]
  | cons w ws ih => simp only [printWords, printForWords]; rw [ih]

theorem for_words (hL : LocaleOk L) (ws : List Word) (h : ∀ w ∈ ws, ItemWord L w) (ml : Bool) (i : Nat) (buf : List Char) :
    ∃ t, printForWords L ml i ws buf = buf ++ t ∧ (t = [] ∧ ws = [] ∨ ∃ t', t = ' ' :: t') ∧
      ((∀ w ∈ ws, ¬EndsWithSpace w) → Tail t) ∧
      ∀ b r tk, Sep r → tk.word = [] → At L (t.reverse ++ b) r tk → ∃ tk0, At L b (t ++ r) tk0 ∧
        ∀ skip, (skip = true → tk.type ≠ .newline) → Ev2 fun m n => wordsLoop L (parser L m) skip n tk0 = some (ws, tk) := by
  induction ws generalizing buf with
  | nil =>
    refine ⟨[], by simp [printForWords], .inl ⟨rfl, rfl⟩, fun _ => Tail.nil, fun b r tk hr hw htk => ⟨tk, by simpa using htk, fun skip hnl => ?_⟩⟩
    refine Ev2.succ ⟨0, fun m n _ _ => ?_⟩
    cases skip
    · simp [wordsLoop, hw]
    · simp [wordsLoop, hnl rfl, hw]
  | cons w ws ih =>
    have hw := h w (by simp)
    obtain ⟨c, s, h1, h2, h3, h4, h5⟩ := hw.rt.at ml i (buf ++ [' '])
    obtain ⟨t, h6, h7, h8, h9⟩ := ih (fun v hv => h v (by simp [hv])) (buf ++ [' '] ++ c :: s)
    refine ⟨' ' :: c :: s ++ t, ?_, .inr ⟨_, rfl⟩, ?_, ?_⟩
    · rw [printForWords, h1, h6]; simp
    · intro hsp
      have hlast := append_last h1 (by simp) (printWord_last ml i hw.ne hw.strs (hsp w (by simp)) _)
      refine Tail.append (.inr ⟨_, rfl, ?_⟩) (h8 fun v hv => hsp v (by simp [hv]))
      rw [show ' ' :: c :: s = [' '] ++ c :: s from rfl, getLast?_append_ne (by simp)]
      exact hlast
    · intro b r tk hr hwe htk
      obtain ⟨tk1, h10, h11⟩ := h9 ((c :: s).reverse ++ ' ' :: b) r tk hr hwe (htk.cast (by simp) rfl)
      have hsep : Sep (t ++ r) := by
        rcases h7 with ⟨rfl, _⟩ | ⟨t', rfl⟩
        · exact hr
        · exact Sep.space _
      have hf := hsep.follow hL w
      have ha := (h5 (' ' :: b) (t ++ r) hf.1).1 ⟨hf.2.1, hf.2.2.1⟩
      refine ⟨_, (At.space hL ha).cast rfl (by simp), fun skip hnl => ?_⟩
      refine Ev2.succ ((h10.two.and (h11 skip hnl)).mono fun m n ⟨e1, e2⟩ => ?_)
      show wordsLoop L (parser L m) skip (n + 1) (wordToken w (c :: s) (' ' :: b) (t ++ r)) = _
      have htn : (wordToken w (c :: s) (' ' :: b) (t ++ r)).type ≠ .newline := by
        intro he
        have := (reservedWordOf_type w).2
        rw [show reservedWordOf w = .newline from he] at this
        cases this
      rw [wordsLoop, if_neg (by simp [htn]), if_neg (by simp [wordToken, hw.ne])]
      simp only [next, wordToken, Option.bind_eq_bind]
      rw [e1]
      simp [e2]

theorem words_parser (m : Nat) (skip : Bool) (tk : Token) :
    words L (parser L m) skip tk = wordsLoop L (parser L m) skip m tk := by rw [words, parser_fuel]

/-! ## Assignments -/

/-- An assignment is read back. -/
def AssignRT (L : Locale) (a : Assign) : Prop :=
  ∀ ml i buf, ∃ s, printAssign L ml i a buf = buf ++ s ∧ Txt s ∧
    ∀ b r tk, Sep r → At L (s.reverse ++ b) r tk → ∃ tk0, At L b (s ++ r) tk0 ∧ tk0.type = .word ∧
      Ev fun m => tryAssign L (parser L m) tk0 = some (some a, tk)

theorem splitAssign_some {W w : Word} {name : List Char} (h : splitAssign L W = some (name, w)) :
    ∃ c n v us, name = c :: n ∧ (∀ d ∈ name, isNameChar L d = true) ∧ W = .str (name ++ '=' :: v) :: us ∧
      w = if v.isEmpty then us else .str v :: us := by
  unfold splitAssign at h
  split at h
  · rename_i s us
    split at h
    · rename_i c n v heq
      cases h
      cases s with
      | nil => simp [skipName] at heq
      | cons d s =>
        unfold skipName at heq
        simp only at heq
        split at heq
        · cases heq
        · have h1 := congrArg Prod.fst heq
          have h2 := congrArg Prod.snd heq
          simp only at h1 h2
          refine ⟨c, n, v, us, rfl, ?_, ?_, rfl⟩
          · intro e he
            rw [← h1] at he
            have := List.all_takeWhile (p := isNameChar L) (l := d :: s)
            exact List.all_eq_true.1 this e he
          · rw [← h1, ← h2, List.takeWhile_append_dropWhile]
    · cases h
  · cases h

theorem assign_type {name v : List Char} {us : Word} : reservedWordOf (.str (name ++ '=' :: v) :: us) = .word := by
  unfold reservedWordOf singleString
  split
  · rename_i s heq
    split at heq
    · rename_i heq2
      cases heq
      cases heq2
      apply reservedWord_word
      intro hk
      have : ∀ k ∈ keywords, '=' ∉ k := by decide
      exact this _ hk (by simp)
    · cases heq
  · rfl

theorem printAssign_text {w : Word} {name v : List Char} {us : Word} (ml : Bool) (i : Nat) (buf : List Char)
    (h : w = if v.isEmpty then us else .str v :: us) :
    printWord L ml i (.str (name ++ '=' :: v) :: us) buf = printWord L ml i w (buf ++ name ++ ['=']) := by
  subst h
  cases v with
  | nil => simp [printWord, printUnit]
  | cons c v => simp [printWord, printUnit]

theorem tryAssign_scalar {R : Rec} {tk tk1 : Token} {name : List Char} {w : Word} (h : splitAssign L tk.word = some (name, w))
    (hn : next L R tk = some tk1) (hp : (lineCont tk.src.rest).head? ≠ some '(') :
    tryAssign L R tk = some (some (.scalar name w), tk1) := by
  simp only [tryAssign, h, hn, Option.bind_eq_bind, Option.bind_some]
  rw [if_neg (by simp [hp])]

theorem tryAssign_array {R : Rec} {tk tk1 tk2 tk3 tk4 : Token} {name : List Char} {ws : List Word} (h : splitAssign L tk.word = some (name, []))
    (hn : next L R tk = some tk1) (hp : (lineCont tk.src.rest).head? = some '(') (h2 : next L R tk1 = some tk2)
    (h3 : words L R true tk2 = some (ws, tk3)) (h4 : tk3.type = .rparen) (h5 : next L R tk3 = some tk4) :
    tryAssign L R tk = some (some (.array name ws), tk4) := by
  simp only [tryAssign, h, hn, Option.bind_eq_bind, Option.bind_some]
  rw [if_pos (by simp [hp])]
  simp [h2, h3, h4, h5]

theorem assign_scalar (hL : LocaleOk L) {W w : Word} {name : List Char} (h : splitAssign L W = some (name, w)) (hW : ItemWord L W)
    (hsp : ¬EndsWithSpace w) : AssignRT L (.scalar name w) := by
  obtain ⟨c1, n, v, us, hname, hchars, rfl, hw⟩ := splitAssign_some h
  intro ml i buf
  obtain ⟨c, s, h1, h2, h3, h4, h5⟩ := hW.rt.at ml i buf
  have h1' := h1
  rw [printAssign_text ml i buf hw] at h1'
  refine ⟨c :: s, by rw [printAssign]; exact h1', ⟨by simp, ?_, ?_⟩, ?_⟩
  · apply append_last h1' (by simp)
    by_cases hne : w = []
    · rw [hne, printWord, getLast?_append_ne (by simp)]
      simp
    · refine printWord_last ml i hne ?_ hsp _
      intro t ht
      subst hw
      split at ht
      · exact hW.strs t (by simp [ht])
      · rename_i hv
        simp at ht hv
        rcases ht with rfl | ht
        · exact hv
        · exact hW.strs t (by simp [ht])
  · intro r hr
    exact h4 r (hr.follow hL _).1
  · intro b r tk hr htk
    have hf := hr.follow hL (.str (name ++ '=' :: v) :: us)
    have ha := (h5 b r hf.1).1 ⟨hf.2.1, hf.2.2.1⟩
    refine ⟨_, ha, assign_type, ?_⟩
    refine htk.mono fun m e => ?_
    refine tryAssign_scalar h e ?_
    simp only [wordToken]
    rw [hf.2.2.2.2]
    exact hf.2.2.2.1

theorem assign_array (hL : LocaleOk L) {W : Word} {name : List Char} {ws : List Word} (h : splitAssign L W = some (name, []))
    (hW : ItemWord L W) (hws : ∀ w ∈ ws, ItemWord L w) (hsp : ∀ w ∈ ws, ¬EndsWithSpace w) : AssignRT L (.array name ws) := by
  obtain ⟨c1, n, v, us, hname, hchars, rfl, hw⟩ := splitAssign_some h
  have hvu : v = [] ∧ us = [] := by
    split at hw
    · rename_i hv
      simp at hv
      exact ⟨hv, hw.symm⟩
    · cases hw
  obtain ⟨rfl, rfl⟩ := hvu
  intro ml i buf
  obtain ⟨c, s, h1, h2, h3, h4, h5⟩ := hW.rt.at ml i buf
  have hcs : c :: s = name ++ ['='] := by
    simp only [printWord, printUnit] at h1
    exact (List.append_cancel_left h1).symm
  have hfo : ∀ r, Follow (isTokenDelimiter L) [.str (name ++ ['='])] ('(' :: r) := by
    intro r
    refine ⟨lineCont_id (by decide), fun d hd => ?_⟩
    simp at hd
    subst hd
    refine ⟨by simp [isTokenDelimiter], fun he => ?_⟩
    obtain ⟨w', hw'⟩ := he
    have := congrArg List.getLast? hw'
    simp at this
    have := congrArg List.getLast? this
    simp at this
  have hcb : c ≠ '\\' := by
    have : c ∈ name ++ ['='] := by rw [← hcs]; simp
    simp at this
    rcases this with hc | rfl
    · rintro rfl
      have := hchars _ hc
      rw [isNameChar_alnum hL (by decide)] at this
      cases this
    · decide
  -- The text of the words and how it is read.
  have key : ∃ t, trimEnd (printWords L ml i ws (buf ++ name ++ "=(".toList)) = buf ++ name ++ "=(".toList ++ t ∧
      ∀ b r tk, At L (t.reverse ++ b) (')' :: r) tk → tk.word = [] → tk.type ≠ .newline → ∃ tk0, At L b (t ++ ')' :: r) tk0 ∧
        Ev2 fun m n => wordsLoop L (parser L m) true n tk0 = some (ws, tk) := by
    cases ws with
    | nil =>
      refine ⟨[], ?_, fun b r tk htk hw hnl => ⟨tk, by simpa using htk, ?_⟩⟩
      · rw [printWords, trimEnd_ne]
        · simp
        · rw [getLast?_append_ne (by simp)]; decide
      · refine Ev2.succ ⟨0, fun m n _ _ => ?_⟩
        simp [wordsLoop, hnl, hw]
    | cons w ws =>
      have hw1 := hws w (by simp)
      obtain ⟨d, u, k1, k2, k3, k4, k5⟩ := hw1.rt.at ml i (buf ++ name ++ "=(".toList)
      obtain ⟨t, k6, k7, k8, k9⟩ := for_words hL ws (fun v hv => hws v (by simp [hv])) ml i (buf ++ name ++ "=(".toList ++ d :: u)
      have htail := k8 fun v hv => hsp v (by simp [hv])
      have hlast := append_last k1 (by simp) (printWord_last ml i hw1.ne hw1.strs (hsp w (by simp)) _)
      refine ⟨d :: u ++ t, ?_, ?_⟩
      · rw [printWords, k1, printWords_for, k6, trimEnd_space, trimEnd_ne]
        · simp
        · rcases htail with rfl | ⟨t', rfl, ht⟩
          · rw [List.append_nil, getLast?_append_ne (by simp)]; exact hlast
          · rw [getLast?_append_ne (by simp)]; exact ht
      · intro b r tk htk hwe hnl
        obtain ⟨tk1, k10, k11⟩ := k9 ((d :: u).reverse ++ b) (')' :: r) tk (Sep.rparen r) hwe (htk.cast (by simp) rfl)
        have hf := (htail.sep (Sep.rparen r)).follow hL w
        have ha := (k5 b (t ++ ')' :: r) hf.1).1 ⟨hf.2.1, hf.2.2.1⟩
        refine ⟨_, ha.cast rfl (by simp), ?_⟩
        refine Ev2.succ ((k10.two.and (k11 true fun _ => hnl)).mono fun m n ⟨e1, e2⟩ => ?_)
        show wordsLoop L (parser L m) true (n + 1) (wordToken w (d :: u) b (t ++ ')' :: r)) = _
        have htn : (wordToken w (d :: u) b (t ++ ')' :: r)).type ≠ .newline := by
          intro he
          have := (reservedWordOf_type w).2
          rw [show reservedWordOf w = .newline from he] at this
          cases this
        rw [wordsLoop, if_neg (by simp [htn]), if_neg (by simp [wordToken, hw1.ne])]
        simp only [next, wordToken, Option.bind_eq_bind]
        rw [e1]
        simp [e2]
  obtain ⟨t, k1, k2⟩ := key
  refine ⟨c :: s ++ '(' :: t ++ [')'], ?_, ?_, ?_⟩
  · rw [printAssign, k1, hcs]; simp
  · refine Txt.of_head hcb ?_
    show ((c :: s ++ '(' :: t) ++ [')']).getLast? ≠ _
    rw [getLast?_append_ne (by simp)]
    simp
  · intro b r tk hr htk
    have ha1 := At.rparen hL (t.reverse ++ '(' :: ((c :: s).reverse ++ b)) r
    obtain ⟨tk2, ha2, hev⟩ := k2 _ _ _ ha1 rfl (by simp [opToken])
    have ha3 := At.lparen hL ((c :: s).reverse ++ b) (t ++ ')' :: r)
    have ha4 := (h5 b ('(' :: (t ++ ')' :: r)) (hfo _)).1 (by simp)
    refine ⟨_, ha4.cast rfl (by simp), assign_type (us := []), ?_⟩
    refine ((ha2.and ha3).and hev.diag).mono2 htk fun m ⟨⟨e2, e3⟩, e4⟩ e5 => ?_
    have e6 := (words_parser m true tk2).trans e4
    refine tryAssign_array h e3 (by rw [wordToken, lineCont_id (by decide)]; rfl) e2 e6 rfl ?_
    · simp only [next, opToken]
      rw [← e5]
      simp

/-! ## Simple commands -/

/-- A command is read back. -/
def CmdRT (L : Locale) (c : Command) : Prop :=
  ∀ ml i buf, ∃ s, printCommand L ml i c buf = buf ++ s ++ [' '] ∧ Txt s ∧
    ∀ b r tk, Sep r → EndTok tk → At L (s.reverse ++ b) r tk → ∃ tk0, At L b (s ++ r) tk0 ∧
      Ev fun m => command L (parser L m) tk0 = some (c, tk)

theorem wordToken_redir (w : Word) (s b r : List Char) : isRedirTok (wordToken w s b r).type = false := (reservedWordOf_type w).1

theorem simple_word {R : Rec} {n : Nat} {first : Bool} {tk tk1 tk2 : Token} {S : Simple} (hr : isRedirTok tk.type = false)
    (hw : tk.word ≠ []) (hf : first = true → splitAssign L tk.word = none) (hn : next L R tk = some tk1)
    (hl : simpleLoop L R n false tk1 = some (S, tk2)) :
    simpleLoop L R (n + 1) first tk = some ({ S with words := tk.word :: S.words }, tk2) := by
  rw [simpleLoop, tryRedirect_none hr]
  have : (if first = true then tryAssign L R tk else some (none, tk)) = some (none, tk) := by
    cases first with
    | false => rfl
    | true => simp [tryAssign, hf rfl]
  simp only [this]
  rw [if_neg (by simp [hw])]
  simp [hn, hl]

theorem simple_assign {R : Rec} {n : Nat} {tk tk1 tk2 : Token} {S : Simple} {a : Assign} (hr : isRedirTok tk.type = false)
    (ha : tryAssign L R tk = some (some a, tk1)) (hl : simpleLoop L R n true tk1 = some (S, tk2)) :
    simpleLoop L R (n + 1) true tk = some ({ S with assigns := a :: S.assigns }, tk2) := by
  rw [simpleLoop, tryRedirect_none hr]
  simp [ha, hl]

theorem words_tail (hL : LocaleOk L) {rs : List Redir} (hrs : ∀ x ∈ rs, RedirRT L x) (ws : List Word) (h : ∀ w ∈ ws, ItemWord L w)
    (hsp : ∀ w ∈ ws, ¬EndsWithSpace w) (ml : Bool) (i : Nat) (buf : List Char) :
    ∃ t, printRedirs L ml i rs (printWords L ml i ws (buf ++ [' '])) = buf ++ t ++ [' '] ∧ Tail t ∧
      ∀ b r tk, Sep r → EndTok tk → At L (t.reverse ++ b) r tk → ∃ tk0, At L b (t ++ r) tk0 ∧
        Ev2 fun m n => ∀ first, (first = true → ∀ w ∈ ws.head?, splitAssign L w = none) →
          simpleLoop L (parser L m) n first tk0 = some (⟨rs, [], ws⟩, tk) := by
  induction ws generalizing buf with
  | nil =>
    obtain ⟨t, h1, h2, h3⟩ := redirs_tail hL rs hrs ml i buf
    refine ⟨t, by rw [printWords, h1], h2, fun b r tk hr he htk => ?_⟩
    obtain ⟨tk0, h4, h5, h6, h7⟩ := h3 b r tk hr he.redir htk
    exact ⟨tk0, h4, (h7 he.word).mono fun m n e first _ => e first⟩
  | cons w ws ih =>
    have hw := h w (by simp)
    obtain ⟨c, s, h1, h2, h3, h4, h5⟩ := hw.rt.at ml i (buf ++ [' '])
    obtain ⟨t, h6, h7, h8⟩ := ih (fun v hv => h v (by simp [hv])) (fun v hv => hsp v (by simp [hv])) (buf ++ [' '] ++ c :: s)
    have hlast := append_last h1 (by simp) (printWord_last ml i hw.ne hw.strs (hsp w (by simp)) _)
    refine ⟨' ' :: c :: s ++ t, ?_, ?_, ?_⟩
    · rw [printWords, h1, h6]; simp
    · refine Tail.append (.inr ⟨_, rfl, ?_⟩) h7
      rw [show ' ' :: c :: s = [' '] ++ c :: s from rfl, getLast?_append_ne (by simp)]
      exact hlast
    · intro b r tk hr he htk
      obtain ⟨tk1, h9, h10⟩ := h8 ((c :: s).reverse ++ ' ' :: b) r tk hr he (htk.cast (by simp) rfl)
      have hf := (h7.sep hr).follow hL w
      have ha := (h5 (' ' :: b) (t ++ r) hf.1).1 ⟨hf.2.1, hf.2.2.1⟩
      refine ⟨_, (At.space hL ha).cast rfl (by simp), ?_⟩
      refine Ev2.succ ((h9.two.and h10).mono fun m n ⟨e1, e2⟩ first hfirst => ?_)
      exact simple_word (wordToken_redir _ _ _ _) hw.ne (fun hft => hfirst hft w (by simp)) e1 (e2 false (by simp))

theorem assigns_tail (hL : LocaleOk L) {rs : List Redir} (hrs : ∀ x ∈ rs, RedirRT L x) {ws : List Word} (hws : ∀ w ∈ ws, ItemWord L w)
    (hsp : ∀ w ∈ ws, ¬EndsWithSpace w) (hsplit : ∀ w ∈ ws.head?, splitAssign L w = none)
    (as : List Assign) (has : ∀ a ∈ as, AssignRT L a) (ml : Bool) (i : Nat) (buf : List Char) :
    ∃ t, printRedirs L ml i rs (printWords L ml i ws (printAssigns L ml i as (buf ++ [' ']))) = buf ++ t ++ [' '] ∧ Tail t ∧
      ∀ b r tk, Sep r → EndTok tk → At L (t.reverse ++ b) r tk → ∃ tk0, At L b (t ++ r) tk0 ∧
        Ev2 fun m n => simpleLoop L (parser L m) n true tk0 = some (⟨rs, as, ws⟩, tk) := by
  induction as generalizing buf with
  | nil =>
    obtain ⟨t, h1, h2, h3⟩ := words_tail hL hrs ws hws hsp ml i buf
    refine ⟨t, by rw [printAssigns, h1], h2, fun b r tk hr he htk => ?_⟩
    obtain ⟨tk0, h4, h5⟩ := h3 b r tk hr he htk
    exact ⟨tk0, h4, h5.mono fun m n e => e true fun _ => hsplit⟩
  | cons a as ih =>
    obtain ⟨s, h1, h2, h3⟩ := has a (by simp) ml i (buf ++ [' '])
    obtain ⟨t, h6, h7, h8⟩ := ih (fun v hv => has v (by simp [hv])) (buf ++ [' '] ++ s)
    refine ⟨' ' :: s ++ t, ?_, h2.space.append h7, ?_⟩
    · rw [printAssigns, h1, h6]; simp
    · intro b r tk hr he htk
      obtain ⟨tk1, h9, h10⟩ := h8 (s.reverse ++ ' ' :: b) r tk hr he (htk.cast (by simp) rfl)
      obtain ⟨tk0, h11, h12, h13⟩ := h3 (' ' :: b) (t ++ r) tk1 (h7.sep hr) h9
      refine ⟨tk0, (At.space hL h11).cast rfl (by simp), ?_⟩
      refine Ev2.succ ((h13.two.and h10).mono fun m n ⟨e1, e2⟩ => ?_)
      exact simple_assign (by rw [h12]; rfl) e1 e2

theorem command_simple {m : Nat} {tk0 tk : Token} {S : Simple} (ht : tk0.type = .word ∨ tk0.type = .ioNumber)
    (h : simpleLoop L (parser L m) m true tk0 = some (S, tk)) (hne : ¬(S.words = [] ∧ S.assigns = [] ∧ S.redirs = []))
    (hl : tk.type ≠ .lparen) : command L (parser L m) tk0 = some (.simple S.redirs S.assigns S.words, tk) := by
  have hc : compound L (parser L m) tk0 = some (none, tk0) := by
    rcases ht with ht | ht <;> simp [compound, compoundHead, ht]
  unfold command
  rw [if_neg (by rcases ht with ht | ht <;> rw [ht] <;> decide), hc]
  simp only [parser_fuel, h, Option.bind_eq_bind, Option.bind_some]
  rw [if_neg]
  · simp [tryFunction, hl]
  · intro hh
    simp only [Bool.and_eq_true, List.isEmpty_iff] at hh
    exact hne ⟨hh.1.1, hh.1.2, hh.2⟩

theorem Ev2.pred {p : Nat → Nat → Prop} (h : Ev2 p) : Ev fun m => ∃ k, m = k + 1 ∧ p m k := by
  obtain ⟨m0, hm⟩ := h
  refine ⟨m0 + 1, fun m hm1 => ⟨m - 1, by omega, hm m (m - 1) (by omega) (by omega)⟩⟩

theorem printCommand_simple (ml : Bool) (i : Nat) (rs : List Redir) (as : List Assign) (ws : List Word) (b : List Char)
    (hk : as = [] → ∀ w ∈ ws.head?, isKeywordWord w = false) : printCommand L ml i (.simple rs as ws) b =
      printRedirs L ml i rs (printWords L ml i ws (printAssigns L ml i as b)) := by
  cases as with
  | cons a as => rfl
  | nil =>
    cases ws with
    | nil => rfl
    | cons w ws =>
      show printRedirs L ml i rs (printWords L ml i (w :: ws)
        (if isKeywordWord w = true then printAssigns L ml i [] b ++ ['\\'] else printAssigns L ml i [] b)) = _
      rw [if_neg (by rw [hk rfl w rfl]; decide)]

theorem cmd_simple (hL : LocaleOk L) {rs : List Redir} (hrs : ∀ x ∈ rs, RedirRT L x) {ws : List Word} (hws : ∀ w ∈ ws, ItemWord L w)
    (hsp : ∀ w ∈ ws, ¬EndsWithSpace w) (hsplit : ∀ w ∈ ws.head?, splitAssign L w = none)
    {as : List Assign} (has : ∀ a ∈ as, AssignRT L a) (hk : as = [] → ∀ w ∈ ws.head?, ¬Keyword w)
    (hne : ¬(ws = [] ∧ as = [] ∧ rs = [])) : CmdRT L (.simple rs as ws) := by
  intro ml i buf
  cases as with
  | cons a as =>
    obtain ⟨s, h1, h2, h3⟩ := has a (by simp) ml i buf
    obtain ⟨t, h6, h7, h8⟩ := assigns_tail hL hrs hws hsp hsplit as (fun v hv => has v (by simp [hv])) ml i (buf ++ s)
    refine ⟨s ++ t, ?_, h2.tail h7, ?_⟩
    · rw [printCommand_simple _ _ _ _ _ _ (by simp), printAssigns, h1, h6]; simp
    · intro b r tk hr he htk
      obtain ⟨tk1, h9, h10⟩ := h8 (s.reverse ++ b) r tk hr he (htk.cast (by simp) rfl)
      obtain ⟨tk0, h11, h12, h13⟩ := h3 b (t ++ r) tk1 (h7.sep hr) h9
      refine ⟨tk0, h11.cast rfl (by simp), ?_⟩
      refine (h13.two.and h10).pred.mono ?_
      rintro _ ⟨k, rfl, e1, e2⟩
      exact command_simple (S := ⟨rs, a :: as, ws⟩) (.inl h12) (simple_assign (by rw [h12]; rfl) e1 e2) (by simp) he.lparen
  | nil =>
    cases ws with
    | cons w ws =>
      have hw := hws w (by simp)
      have hkw : reservedWordOf w = .word := by
        have := hk rfl w (by simp)
        rw [reservedWordOf_keyword] at this
        exact Classical.not_not.1 this
      have hkw' : isKeywordWord w = false := by
        unfold isKeywordWord
        unfold reservedWordOf at hkw
        split
        · rename_i heq
          rw [heq] at hkw
          simp [hkw]
        · rfl
      obtain ⟨c, s, h1, h2, h3, h4, h5⟩ := hw.rt.at ml i buf
      obtain ⟨t, h6, h7, h8⟩ := words_tail hL hrs ws (fun v hv => hws v (by simp [hv])) (fun v hv => hsp v (by simp [hv])) ml i (buf ++ c :: s)
      have hlast := append_last h1 (by simp) (printWord_last ml i hw.ne hw.strs (hsp w (by simp)) _)
      refine ⟨c :: s ++ t, ?_, Txt.tail ⟨by simp, hlast, fun r hr => h4 r (hr.follow hL w).1⟩ h7, ?_⟩
      · rw [printCommand_simple _ _ _ _ _ _ (by simpa using hkw'), printAssigns, printWords, h1, h6]; simp
      · intro b r tk hr he htk
        obtain ⟨tk1, h9, h10⟩ := h8 ((c :: s).reverse ++ b) r tk hr he (htk.cast (by simp) rfl)
        have hf := (h7.sep hr).follow hL w
        have ha := (h5 b (t ++ r) hf.1).1 ⟨hf.2.1, hf.2.2.1⟩
        refine ⟨_, ha.cast rfl (by simp), ?_⟩
        refine (h9.two.and h10).pred.mono ?_
        rintro _ ⟨k, rfl, e1, e2⟩
        exact command_simple (S := ⟨rs, [], w :: ws⟩) (.inl hkw)
          (simple_word (wordToken_redir _ _ _ _) hw.ne (fun _ => hsplit w (by simp)) e1 (e2 false (by simp))) (by simp) he.lparen
    | nil =>
      cases rs with
      | nil => simp at hne
      | cons x rs =>
        obtain ⟨s, h1, h2, h3⟩ := hrs x (by simp) ml i buf
        obtain ⟨t, h6, h7, h8⟩ := redirs_tail hL rs (fun v hv => hrs v (by simp [hv])) ml i (buf ++ s)
        refine ⟨s ++ t, ?_, h2.tail h7, ?_⟩
        · rw [printCommand_simple _ _ _ _ _ _ (by simp), printAssigns, printWords, printRedirs, h1, h6]; simp
        · intro b r tk hr he htk
          obtain ⟨tk1, h9, _, _, h10⟩ := h8 (s.reverse ++ b) r tk hr he.redir (htk.cast (by simp) rfl)
          obtain ⟨tk0, h11, h12, h13⟩ := h3 b (t ++ r) tk1 (h7.sep hr) h9
          refine ⟨tk0, h11.cast rfl (by simp), ?_⟩
          refine (h13.two.and (h10 he.word)).pred.mono ?_
          rintro _ ⟨k, rfl, e1, e2⟩
          refine command_simple (S := ⟨x :: rs, [], []⟩) (.inr h12) ?_ (by simp) he.lparen
          rw [simpleLoop, e1]
          simp [e2]

end Yash.Parser
