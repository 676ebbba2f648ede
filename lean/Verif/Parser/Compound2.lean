import Verif.Parser.Compound
/-!
# For loops, case commands and function definitions are read back
-/
set_option autoImplicit false

namespace Yash.Parser

open Syntax Spec
open Expand (Locale)

variable {L : Locale}

/-! ## Names -/

theorem isNameBy_chars {p : Char → Bool} {s : List Char} (h : isNameBy p s = true) :
    ∃ c t, s = c :: t ∧ isDigitChar c = false ∧ ∀ d ∈ s, p d = true := by
  cases s with
  | nil => simp [isNameBy] at h
  | cons c t =>
    simp only [isNameBy, skipName] at h
    split at h
    · simp at h
    · rename_i hd
      refine ⟨c, t, rfl, by simpa using hd, ?_⟩
      simp only [List.isEmpty_cons, Bool.not_false, Bool.true_and, List.isEmpty_iff] at h
      rw [← List.takeWhile_append_dropWhile (p := p) (l := c :: t), h, List.append_nil]
      intro d hd
      exact List.all_eq_true.1 (List.all_takeWhile (p := p) (l := c :: t)) d hd

theorem Plain.name (hL : LocaleOk L) {c : Char} (h : isNameChar L c = true) : Plain L c ∧ c ≠ '#' := by
  refine ⟨?_, ?_⟩
  · simp [isNameChar] at h
    rcases h with rfl | h
    · exact Plain.punct hL (by decide)
    · exact Plain.alnum hL h
  · rintro rfl
    rw [isNameChar_alnum hL (by decide)] at h
    cases h

theorem At.name (hL : LocaleOk L) {name : List Char} (hn : isNameBy (isNameChar L) name = true) (b : List Char) {r : List Char}
    (hr : Follow (isTokenDelimiter L) [.str name] r) (h1 : r.head? ≠ some '<' ∧ r.head? ≠ some '>') :
    At L b (name ++ r) (wordToken [.str name] name b r) := by
  obtain ⟨c, t, rfl, h2, h3⟩ := isNameBy_chars hn
  exact (Plain.at (fun d hd => (Plain.name hL (h3 d hd)).1) (Plain.name hL (h3 c (by simp))).2 b r hr).1 h1

/-! ## For loops -/

/-- The part between the name and `do`. -/
def printForHead (L : Locale) (ws : Option (List Word)) (ml : Bool) (i : Nat) (b : List Char) : List Char :=
  match ws with
  | some ws => spaceOrNewline ml (printForWords L ml i ws (b ++ " in".toList) ++ (if ml then [] else [';']))
  | none => b ++ [' ']

def printFor (L : Locale) (name : List Char) (ws : Option (List Word)) (l : List AndOr) (ml : Bool) (i : Nat) (b : List Char) : List Char :=
  let b := printForHead L ws ml i (b ++ "for ".toList ++ name)
  let b := printAndOrs L ml (i + 1) false l (spaceOrNewline ml (printIndent ml i b ++ "do".toList))
  printIndent ml i b ++ "done".toList

theorem for_read {R : Rec} {tk tk1 tk2 tk3 tk4 tk5 tk6 tk7 tk8 : Token} {ws : Option (List Word)} {l : List AndOr} (h0 : tk.type = .for)
    (h1 : next L R tk = some tk1) (h2 : isNameWord L tk1.word = true) (h3 : next L R tk1 = some tk2) (h4 : newlines L R tk2 = some tk3)
    (h5 : forWords L R (tk2.type == .newline) tk3 = some (ws, tk4)) (h6 : newlines L R tk4 = some tk5) (h7 : tk5.type = .do)
    (h8 : next L R tk5 = some tk6) (h9 : R.list tk6 = some (l, tk7)) (h10 : tk7.type = .done) (h11 : next L R tk7 = some tk8) :
    compoundHead L R tk = some (some (.fors [] tk1.text ws l, tk8)) := by
  simp [compoundHead, h0, forCommand, h1, h2, h3, h4, h5, h6, expect, h7, h8, h9, h10, h11]

theorem forWords_in {R : Rec} {late : Bool} {tk tk1 tk2 : Token} {ws : List Word} (h0 : tk.type = .in) (h1 : next L R tk = some tk1)
    (h2 : words L R false tk1 = some (ws, tk2)) (h3 : tk2.type ≠ .semicolon) : forWords L R late tk = some (some ws, tk2) := by
  simp [forWords, h0, h1, h2, h3]

theorem forWords_semi {R : Rec} {late : Bool} {tk tk1 tk2 tk3 : Token} {ws : List Word} (h0 : tk.type = .in) (h1 : next L R tk = some tk1)
    (h2 : words L R false tk1 = some (ws, tk2)) (h3 : tk2.type = .semicolon) (h4 : next L R tk2 = some tk3) :
    forWords L R late tk = some (some ws, tk3) := by
  simp [forWords, h0, h1, h2, h3, h4]

theorem newlines_other {m : Nat} {tk : Token} (h : tk.type ≠ .newline) : newlines L (parser L (m + 1)) tk = some tk := by
  rw [newlines, parser_fuel, newlinesLoop, if_neg (by simpa using h)]

/-- The words of a `for` loop and what follows up to `do`. -/
theorem for_in (hL : LocaleOk L) {ws : List Word} (hws : ∀ w ∈ ws, ItemWord L w) (ml : Bool) (i : Nat) (buf : List Char) :
    ∃ s, printIndent ml i (spaceOrNewline ml (printForWords L ml i ws (buf ++ " in".toList) ++ (if ml then [] else [';']))) =
        buf ++ ' ' :: s ∧
      ∀ b r, Sep r → ∃ tk3, At L b (s ++ ("do".toList ++ r)) tk3 ∧ tk3.type = .in ∧ ∃ tk4,
        (∀ late, Ev fun m => forWords L (parser L m) late tk3 = some (some ws, tk4)) ∧
        (Ev fun m => newlines L (parser L m) tk4 = some (wordToken [.str "do".toList] "do".toList (s.reverse ++ b) r)) := by
  obtain ⟨t, h1, h2, -, h3⟩ := for_words hL ws hws ml i (buf ++ " in".toList)
  obtain ⟨k, h4⟩ := printIndent_eq ml i (spaceOrNewline ml (printForWords L ml i ws (buf ++ " in".toList) ++ (if ml then [] else [';'])))
  refine ⟨"in".toList ++ t ++ (if ml then ['\n'] else "; ".toList) ++ List.replicate k ' ', ?_, fun b r hr => ?_⟩
  · rw [h4, h1, spaceOrNewline_eq]
    cases ml <;> simp [gap]
  · have hsep : ∀ x, Sep x → Sep (t ++ x) := by
      intro x hx
      rcases h2 with ⟨rfl, _⟩ | ⟨t', rfl⟩
      · exact hx
      · exact Sep.space _
    cases ml with
    | true =>
      have hn1 := ((NLs.keyword hL "do".toList (by decide) (List.replicate k ' ' ++ ('\n' :: (t.reverse ++ ("in".toList.reverse ++ b)))) hr).spaces hL k)
      obtain ⟨tk1, ha1, hev1⟩ := hn1.newline hL |>.newlines
      have ha1' := At.newline hL (t.reverse ++ ("in".toList.reverse ++ b)) (List.replicate k ' ' ++ ("do".toList ++ r))
      have he : tk1 = opToken .newline ['\n'] (t.reverse ++ ("in".toList.reverse ++ b)) (List.replicate k ' ' ++ ("do".toList ++ r)) := by
        obtain ⟨m, h⟩ := ha1.and ha1'
        obtain ⟨g1, g2⟩ := h m (Nat.le_refl m)
        exact Option.some.inj (g1.symm.trans g2)
      subst he
      obtain ⟨tk0, ha0, hev0⟩ := h3 ("in".toList.reverse ++ b) ('\n' :: (List.replicate k ' ' ++ ("do".toList ++ r))) _ (Sep.newline _) rfl ha1'
      have ha2 := At.keyword hL "in".toList (by decide) b (hsep _ (Sep.newline (List.replicate k ' ' ++ ("do".toList ++ r))))
      refine ⟨_, ha2.cast rfl (by simp), rfl,
        opToken .newline ['\n'] (t.reverse ++ ("in".toList.reverse ++ b)) (List.replicate k ' ' ++ ("do".toList ++ r)), fun late => ?_, hev1.mono fun m e => ?_⟩
      · refine ha0.mono2 (hev0 false (by simp)).diag fun m e1 e2 => ?_
        exact forWords_in rfl e1 ((words_parser m false tk0).trans e2) (by simp [opToken])
      · rw [e]
        simp
    | false =>
      have ha1 := ((At.keyword hL "do".toList (by decide) (List.replicate k ' ' ++ (' ' :: ';' :: (t.reverse ++ ("in".toList.reverse ++ b)))) hr).spaces hL k).space hL
      have ha2 := At.semicolon hL (t.reverse ++ ("in".toList.reverse ++ b)) (r := ' ' :: (List.replicate k ' ' ++ ("do".toList ++ r)))
        (lineCont_id (by decide)) (by simp)
      obtain ⟨tk0, ha0, hev0⟩ := h3 ("in".toList.reverse ++ b) (';' :: ' ' :: (List.replicate k ' ' ++ ("do".toList ++ r))) _ (Sep.semi _) rfl ha2
      have ha3 := At.keyword hL "in".toList (by decide) b (hsep _ (Sep.semi (' ' :: (List.replicate k ' ' ++ ("do".toList ++ r)))))
      refine ⟨_, ha3.cast rfl (by simp), rfl, wordToken [.str "do".toList] "do".toList
        (List.replicate k ' ' ++ (' ' :: ';' :: (t.reverse ++ ("in".toList.reverse ++ b)))) r, fun late => ?_, ?_⟩
      · refine (ha0.and ha1).mono2 (hev0 false (by simp)).diag fun m ⟨e1, e3⟩ e2 => ?_
        exact forWords_semi rfl e1 ((words_parser m false tk0).trans e2) rfl e3
      · refine Ev.succ (.of fun m => ?_)
        rw [newlines_other (by show reservedWord "do".toList ≠ _; decide)]
        simp

theorem head_for (hL : LocaleOk L) {name : List Char} (hname : isNameBy (isNameChar L) name = true) {ws : Option (List Word)}
    (hws : ∀ v, ws = some v → ∀ w ∈ v, ItemWord L w) {l : List AndOr} (hl : ListRT L l) : HeadRT L (printFor L name ws l) (.fors [] name ws l) := by
  intro ml i buf
  -- The part between the name and `do`.
  have key : ∃ s, printIndent ml i (printForHead L ws ml i (buf ++ "for ".toList ++ name)) = buf ++ "for ".toList ++ name ++ ' ' :: s ∧
      ∀ b r, Sep r → ∃ tk3, At L b (s ++ ("do".toList ++ r)) tk3 ∧ tk3.type ≠ .newline ∧ ∃ tk4,
        (∀ late, Ev fun m => forWords L (parser L m) late tk3 = some (ws, tk4)) ∧
        (Ev fun m => newlines L (parser L m) tk4 = some (wordToken [.str "do".toList] "do".toList (s.reverse ++ b) r)) := by
    cases ws with
    | some v =>
      obtain ⟨s, h1, h2⟩ := for_in hL (hws v rfl) ml i (buf ++ "for ".toList ++ name)
      refine ⟨s, h1, fun b r hr => ?_⟩
      obtain ⟨tk3, h3, h4, h5⟩ := h2 b r hr
      exact ⟨tk3, h3, by rw [h4]; decide, h5⟩
    | none =>
      obtain ⟨k, h1⟩ := printIndent_eq ml i (buf ++ "for ".toList ++ name ++ [' '])
      refine ⟨List.replicate k ' ', by rw [printForHead, h1]; simp, fun b r hr => ?_⟩
      have ha := (At.keyword hL "do".toList (by decide) (List.replicate k ' ' ++ b) hr).spaces hL k
      refine ⟨_, ha, by show reservedWord "do".toList ≠ _; decide, wordToken [.str "do".toList] "do".toList (List.replicate k ' ' ++ b) r, fun late => .of fun m => ?_, ?_⟩
      · rfl
      · refine Ev.succ (.of fun m => ?_)
        rw [newlines_other (by show reservedWord "do".toList ≠ _; decide)]
        simp
  obtain ⟨s1, h1, h2⟩ := key
  obtain ⟨s2, h3, h4⟩ := list_keyword hL hl "done".toList (by decide) (by decide) ml i
    (spaceOrNewline ml (buf ++ "for ".toList ++ name ++ ' ' :: s1 ++ "do".toList))
  refine ⟨'f' :: ("or ".toList ++ name ++ ' ' :: s1 ++ "do".toList ++ gap ml :: s2 ++ "don".toList ++ ['e']), ?_,
    Txt.of_last (by decide) (by decide), fun b r tk hr htk => ?_⟩
  · rw [printFor, h1, h3, spaceOrNewline_eq]
    simp
  · obtain ⟨tk1, hn1, hread1⟩ := h4 (gap ml :: ("do".toList.reverse ++ (s1.reverse ++ ' ' :: (name.reverse ++ ' ' :: ("for".toList.reverse ++ b))))) r hr
    obtain ⟨tk2, ha2, hev2⟩ := hread1 _ _ (hn1.gap hL ml)
    obtain ⟨tk3, ha3, ht3, tk4, hev3, hev4⟩ := h2 (' ' :: (name.reverse ++ ' ' :: ("for".toList.reverse ++ b)))
      (gap ml :: (s2 ++ ("done".toList ++ r))) (gap_sep ml _)
    have hf := (Sep.space (s1 ++ ("do".toList ++ gap ml :: (s2 ++ ("done".toList ++ r))))).follow hL [.str name]
    have ha5 := (At.name hL hname (' ' :: ("for".toList.reverse ++ b)) hf.1 ⟨hf.2.1, hf.2.2.1⟩).space hL
    have ha6 := At.keyword hL "for".toList (by decide) b
      (Sep.space (name ++ ' ' :: (s1 ++ ("do".toList ++ gap ml :: (s2 ++ ("done".toList ++ r))))))
    refine ⟨_, ha6.cast rfl (by simp), ?_⟩
    have hnl : Ev fun m => newlines L (parser L m) tk3 = some tk3 := Ev.succ (.of fun m => newlines_other ht3)
    refine (((ha2.and hev2).and ((ha3.space hL).and (hev3 (tk3.type == .newline)))).and ((hev4.and hnl).and ha5)).mono2
      (htk.cast (b' := "done".toList.reverse ++ (s2.reverse ++ gap ml :: ("do".toList.reverse ++ (s1.reverse ++
        ' ' :: (name.reverse ++ ' ' :: ("for".toList.reverse ++ b)))))) (by simp) rfl)
      fun m ⟨⟨⟨e1, e2⟩, e3, e4⟩, ⟨e5, e6⟩, e7⟩ e8 => ?_
    exact for_read (tk := wordToken [.str "for".toList] "for".toList b
      (' ' :: (name ++ ' ' :: (s1 ++ ("do".toList ++ gap ml :: (s2 ++ ("done".toList ++ r)))))))
      rfl e7 (by simpa [isNameWord, singleString, wordToken] using hname) e3 e6 e4 e5 rfl e1 e2 rfl e8

/-! ## Case commands -/

theorem patterns_read (hL : LocaleOk L) (ps : List Word) (h : ∀ w ∈ ps, ItemWord L w) (hne : ps ≠ []) (ml : Bool) (i : Nat) (first : Bool)
    (buf : List Char) :
    ∃ s, printPatterns L ml i first ps buf = buf ++ (if first then [] else " | ".toList) ++ s ∧
      ∀ b r tk, At L (')' :: (s.reverse ++ b)) r tk → ∃ tk0, At L b (s ++ ')' :: r) tk0 ∧
        Ev2 fun m n => patternsLoop L (parser L m) n tk0 = some (ps, tk) := by
  induction ps generalizing buf first with
  | nil => exact absurd rfl hne
  | cons w ws ih =>
    have hw := h w (by simp)
    obtain ⟨c, s, h1, h2, h3, h4, h5⟩ := hw.rt.at ml i (buf ++ (if first then [] else " | ".toList))
    have hp : printPatterns L ml i first (w :: ws) buf = printPatterns L ml i false ws (buf ++ (if first then [] else " | ".toList) ++ c :: s) := by
      rw [printPatterns, ← h1]
      cases first <;> simp
    by_cases hws : ws = []
    · subst hws
      refine ⟨c :: s, by rw [hp, printPatterns], fun b r tk htk => ?_⟩
      have hf := (Sep.rparen r).follow hL w
      have ha := (h5 b (')' :: r) hf.1).1 ⟨hf.2.1, hf.2.2.1⟩
      have ha2 := At.rparen hL ((c :: s).reverse ++ b) r
      refine ⟨_, ha, Ev2.succ ((ha2.and htk).two.mono fun m n ⟨e1, e2⟩ => ?_)⟩
      show patternsLoop L (parser L m) (n + 1) (wordToken w (c :: s) b (')' :: r)) = _
      have e1' : next L (parser L m) (wordToken w (c :: s) b (')' :: r)) = some (opToken .rparen [')'] ((c :: s).reverse ++ b) r) := e1
      have e2' := expect_next (L := L) (R := parser L m) (ty := .rparen) (tk := opToken .rparen [')'] ((c :: s).reverse ++ b) r) rfl e2
      rw [patternsLoop, if_neg (by simp [wordToken, hw.ne]), e1']
      simp only [Option.bind_eq_bind, Option.bind_some]
      rw [if_neg (by simp [opToken]), e2']
      rfl
    · obtain ⟨s2, h6, h7⟩ := ih (fun v hv => h v (by simp [hv])) hws false (buf ++ (if first then [] else " | ".toList) ++ c :: s)
      refine ⟨c :: s ++ " | ".toList ++ s2, by rw [hp, h6]; simp, fun b r tk htk => ?_⟩
      obtain ⟨tk1, h8, h9⟩ := h7 (' ' :: '|' :: ' ' :: ((c :: s).reverse ++ b)) r tk (htk.cast (by simp) rfl)
      have hf := (Sep.space ('|' :: ' ' :: (s2 ++ ')' :: r))).follow hL w
      have ha := (h5 b (' ' :: '|' :: ' ' :: (s2 ++ ')' :: r)) hf.1).1 ⟨hf.2.1, hf.2.2.1⟩
      have ha2 := (At.pipe hL (' ' :: ((c :: s).reverse ++ b)) (r := ' ' :: (s2 ++ ')' :: r)) (lineCont_id (by decide)) (by simp)).space hL
      refine ⟨_, ha.cast rfl (by simp), Ev2.succ ((ha2.and (h8.space hL)).two.and h9 |>.mono fun m n ⟨⟨e1, e2⟩, e3⟩ => ?_)⟩
      show patternsLoop L (parser L m) (n + 1) (wordToken w (c :: s) b (' ' :: '|' :: ' ' :: (s2 ++ ')' :: r))) = _
      have e1' : next L (parser L m) (wordToken w (c :: s) b (' ' :: '|' :: ' ' :: (s2 ++ ')' :: r))) =
        some (opToken .pipe ['|'] (' ' :: ((c :: s).reverse ++ b)) (' ' :: (s2 ++ ')' :: r))) := e1
      have e2' : next L (parser L m) (opToken .pipe ['|'] (' ' :: ((c :: s).reverse ++ b)) (' ' :: (s2 ++ ')' :: r))) = some tk1 := e2
      rw [patternsLoop, if_neg (by simp [wordToken, hw.ne]), e1']
      simp only [Option.bind_eq_bind, Option.bind_some]
      rw [if_pos (by simp [opToken]), e2']
      simp only [Option.bind_some, e3]
      rfl

/-- A case item is read back. -/
def ItemRT (L : Locale) : CaseItem → Prop
  | .mk ps l => ps ≠ [] ∧ (∀ w ∈ ps, ItemWord L w) ∧ ListRT L l

theorem case_round {R : Rec} {n : Nat} {tk tk1 tk1' tk2 tk3 tk4 tk5 : Token} {ps : List Word} {l : List AndOr} {cs : List CaseItem}
    (h1 : newlines L R tk = some tk1) (h2 : tk1.type = .lparen) (h2' : next L R tk1 = some tk1')
    (h3 : patternsLoop L R R.fuel tk1' = some (ps, tk2)) (h4 : R.list tk2 = some (l, tk3)) (h5 : tk3.type = .doubleSemicolon)
    (h6 : next L R tk3 = some tk4) (h7 : caseLoop L R n tk4 = some (cs, tk5)) :
    caseLoop L R (n + 1) tk = some (.mk ps l :: cs, tk5) := by
  simp [caseLoop, h1, h2, patterns, h2', h3, h4, h5, h6, h7]

theorem case_items (hL : LocaleOk L) (cs : List CaseItem) (h : ∀ c ∈ cs, ItemRT L c) (ml : Bool) (i : Nat) (buf : List Char) :
    ∃ s, printIndent ml i (printItems L ml (i + 1) cs buf) = buf ++ s ∧ ∀ b r, Sep r →
      ∃ tk1, NLs L b (s ++ ("esac".toList ++ r)) tk1 ∧
        Ev2 fun m n => ∀ tk, newlines L (parser L m) tk = some tk1 →
          caseLoop L (parser L m) n tk = some (cs, wordToken [.str "esac".toList] "esac".toList (s.reverse ++ b) r) := by
  induction cs generalizing buf with
  | nil =>
    obtain ⟨k, h1⟩ := printIndent_eq ml i buf
    refine ⟨List.replicate k ' ', by rw [printItems, h1], fun b r hr => ?_⟩
    have hn := (NLs.keyword hL "esac".toList (by decide) (List.replicate k ' ' ++ b) hr).spaces hL k
    refine ⟨_, hn, Ev2.succ ⟨0, fun m n _ _ tk e => ?_⟩⟩
    rw [caseLoop, e]
    simp only [Option.bind_eq_bind, Option.bind_some]
    rw [if_pos (by rfl)]
    simp
  | cons c cs ih =>
    obtain ⟨ps, l⟩ := c
    obtain ⟨hne, hps, hl⟩ := h (.mk ps l) (by simp)
    obtain ⟨k, h1⟩ := printIndent_eq ml (i + 1) buf
    obtain ⟨s1, h2, h3⟩ := patterns_read hL ps hps hne ml (i + 1) true (buf ++ List.replicate k ' ' ++ ['('])
    simp only [if_true, List.append_nil] at h2
    obtain ⟨s2, h4, -, h5, h6⟩ := hl.readNL ml (i + 1 + 1) true (buf ++ List.replicate k ' ' ++ ['('] ++ s1 ++ [')'] ++ [gap ml])
    -- What is between the list and the semicolons.
    obtain ⟨g, hg1, hg2, hg3⟩ : ∃ g, printIndent ml (i + 1 + 1) (if l.isEmpty then buf ++ List.replicate k ' ' ++ ['('] ++ s1 ++ [')'] ++ [gap ml] else
          spaceOrNewline ml (buf ++ List.replicate k ' ' ++ ['('] ++ s1 ++ [')'] ++ [gap ml] ++ s2)) =
          buf ++ List.replicate k ' ' ++ ['('] ++ s1 ++ [')'] ++ [gap ml] ++ s2 ++ g ∧ (∀ r, Sep (g ++ ';' :: r) ∧ (g ++ ';' :: r).head? ≠ some '&') ∧
          ∀ b r tk, NLs L (g.reverse ++ b) r tk → NLs L b (g ++ r) tk := by
      by_cases hle : l = []
      · obtain ⟨k2, hk2⟩ := printIndent_eq ml (i + 1 + 1) (buf ++ List.replicate k ' ' ++ ['('] ++ s1 ++ [')'] ++ [gap ml])
        refine ⟨List.replicate k2 ' ', ?_, fun r => ?_, fun b r tk hn => ?_⟩
        · rw [if_pos (by simp [hle]), hk2, h5 hle]; simp
        · cases k2 with
          | zero => exact ⟨Sep.semi _, by simp⟩
          | succ k2 => exact ⟨Sep.space _, by simp [List.replicate_succ]⟩
        · exact NLs.spaces hL k2 (hn.cast (by simp) rfl)
      · obtain ⟨k2, hk2⟩ := printIndent_eq ml (i + 1 + 1) (spaceOrNewline ml (buf ++ List.replicate k ' ' ++ ['('] ++ s1 ++ [')'] ++ [gap ml] ++ s2))
        refine ⟨gap ml :: List.replicate k2 ' ', ?_, fun r => ⟨gap_sep ml _, by cases ml <;> simp [gap]⟩, fun b r tk hn => ?_⟩
        · rw [if_neg (by simp [hle]), hk2, spaceOrNewline_eq]; simp
        · exact NLs.gap hL ml (NLs.spaces hL k2 (hn.cast (by simp) rfl))
    obtain ⟨s3, h7, h8⟩ := ih (fun c' hc' => h c' (by simp [hc']))
      (buf ++ List.replicate k ' ' ++ ['('] ++ s1 ++ [')'] ++ [gap ml] ++ s2 ++ g ++ ";;".toList ++ [gap ml])
    refine ⟨List.replicate k ' ' ++ '(' :: s1 ++ ')' :: gap ml :: s2 ++ g ++ ";;".toList ++ gap ml :: s3, ?_, fun b r hr => ?_⟩
    · rw [printItems, printItem, h1, h2, spaceOrNewline_eq ml (buf ++ List.replicate k ' ' ++ ['('] ++ s1 ++ [')']), h4, hg1, spaceOrNewline_eq, h7]
      simp
    · generalize hB : ')' :: (s1.reverse ++ '(' :: (List.replicate k ' ' ++ b)) = B
      obtain ⟨tk1, hn1, hev1⟩ := h8 (gap ml :: (";;".toList.reverse ++ (g.reverse ++ (s2.reverse ++ gap ml :: B)))) r hr
      obtain ⟨tk2, ha2, hev2⟩ := (hn1.gap hL ml).newlines
      have hd := At.dsemi hL (g.reverse ++ (s2.reverse ++ gap ml :: B)) (gap ml :: (s3 ++ ("esac".toList ++ r)))
      have hdn := hg3 _ _ _ (NLs.of_at hd (by simp [opToken]))
      obtain ⟨tk3, hn3, hread3⟩ := h6 (gap ml :: B) _ _ hdn (.inl rfl) (fun _ => ⟨(hg2 _).1, (hg2 _).2, rfl⟩)
      obtain ⟨tk4, ha4, hev4⟩ := hread3 _ _ (hn3.gap hL ml)
      subst hB
      obtain ⟨tk5, ha5, hev5⟩ := h3 _ _ _ ha4
      have ha6 := At.lparen hL (List.replicate k ' ' ++ b) (s1 ++ ')' :: gap ml :: (s2 ++ (g ++ (';' :: ';' :: gap ml :: (s3 ++ ("esac".toList ++ r))))))
      have hn6 := (NLs.of_at ha6 (by simp [opToken])).spaces hL k
      refine ⟨_, hn6.cast rfl (by simp), Ev2.succ ?_⟩
      refine (((ha2.and hev2).and (hev4.and (ha5.and hev5.diag))).two.and hev1).mono
        fun m n ⟨⟨⟨e1, e2⟩, e3, e4, e5⟩, e6⟩ tk e => ?_
      have := case_round (L := L) (R := parser L m) e rfl e4 (by rw [parser_fuel]; exact e5) e3 rfl e1 (e6 _ e2)
      rw [this]
      simp

def printCase (L : Locale) (w : Word) (cs : List CaseItem) (ml : Bool) (i : Nat) (b : List Char) : List Char :=
  let b := spaceOrNewline ml (printWord L ml i w (b ++ "case ".toList) ++ " in".toList)
  printIndent ml i (printItems L ml (i + 1) cs b) ++ "esac".toList

theorem case_read {m : Nat} {tk tk1 tk2 tk4 tk5 tk6 : Token} {cs : List CaseItem} (h0 : tk.type = .case)
    (h1 : next L (parser L (m + 1)) tk = some tk1) (hw : tk1.word ≠ []) (h2 : next L (parser L (m + 1)) tk1 = some tk2) (h3 : tk2.type = .in)
    (h4 : next L (parser L (m + 1)) tk2 = some tk4) (h5 : caseLoop L (parser L (m + 1)) (m + 1) tk4 = some (cs, tk5)) (h6 : tk5.type = .esac)
    (h7 : next L (parser L (m + 1)) tk5 = some tk6) : compoundHead L (parser L (m + 1)) tk = some (some (.cases [] tk1.word cs, tk6)) := by
  have h8 : newlines L (parser L (m + 1)) tk2 = some tk2 := newlines_other (by rw [h3]; decide)
  simp [compoundHead, h0, caseCommand, h1, hw, h2, h8, expect, h3, h4, parser_fuel, h5, h6, h7]

theorem head_case (hL : LocaleOk L) {w : Word} (hw : ItemWord L w) {cs : List CaseItem} (hcs : ∀ c ∈ cs, ItemRT L c) :
    HeadRT L (printCase L w cs) (.cases [] w cs) := by
  intro ml i buf
  obtain ⟨c, s, h1, h2, h3, h4, h5⟩ := hw.rt.at ml i (buf ++ "case ".toList)
  obtain ⟨s2, h6, h7⟩ := case_items hL cs hcs ml i (buf ++ "case ".toList ++ c :: s ++ " in".toList ++ [gap ml])
  refine ⟨'c' :: ("ase ".toList ++ c :: s ++ " in".toList ++ gap ml :: s2 ++ "esa".toList ++ ['c']), ?_, Txt.of_last (by decide) (by decide),
    fun b r tk hr htk => ?_⟩
  · rw [printCase, h1, spaceOrNewline_eq, h6]; simp
  · generalize hB : (c :: s).reverse ++ ' ' :: ("case".toList.reverse ++ b) = B
    obtain ⟨tk1, hn1, hev1⟩ := h7 (gap ml :: ("in".toList.reverse ++ ' ' :: B)) r hr
    obtain ⟨tk2, ha2, hev2⟩ := (hn1.gap hL ml).newlines
    have ha3 := (At.keyword hL "in".toList (by decide) (' ' :: B) (gap_sep ml (s2 ++ ("esac".toList ++ r)))).space hL
    have hf := (Sep.space ("in".toList ++ gap ml :: (s2 ++ ("esac".toList ++ r)))).follow hL w
    subst hB
    have ha4 := ((h5 (' ' :: ("case".toList.reverse ++ b)) _ hf.1).1 ⟨hf.2.1, hf.2.2.1⟩).space hL
    have ha5 := At.keyword hL "case".toList (by decide) b (Sep.space (c :: s ++ ' ' :: ("in".toList ++ gap ml :: (s2 ++ ("esac".toList ++ r)))))
    refine ⟨_, ha5.cast rfl (by simp), ?_⟩
    have hpos : Ev fun m => ∃ k, m = k + 1 := Ev.succ (.of fun m => ⟨m, rfl⟩)
    refine (((ha2.and hev2).and (hev1.diag.and (ha3.and ha4))).and hpos).mono2
      (htk.cast (b' := "esac".toList.reverse ++ (s2.reverse ++ gap ml :: ("in".toList.reverse ++ ' ' :: ((c :: s).reverse ++ ' ' :: ("case".toList.reverse ++ b)))))
        (by simp) rfl) ?_
    rintro _ ⟨⟨⟨e1, e2⟩, e3, e4, e5⟩, m, rfl⟩ e6
    exact case_read (tk := wordToken [.str "case".toList] "case".toList b (' ' :: (c :: s ++ ' ' :: ("in".toList ++ gap ml :: (s2 ++ ("esac".toList ++ r))))))
      (tk1 := wordToken w (c :: s) (' ' :: ("case".toList.reverse ++ b)) (' ' :: ("in".toList ++ gap ml :: (s2 ++ ("esac".toList ++ r)))))
      rfl e5 hw.ne e4 rfl e1 (e3 _ e2) rfl e6

/-! ## Function definitions -/

theorem func_body (hL : LocaleOk L) {c : Command} (hc : CompRT L c) (ml : Bool) (i : Nat) (buf : List Char) :
    ∃ s, printCommand L ml i c (printIndent ml i (spaceOrNewline ml buf)) = buf ++ s ++ [' '] ∧ Tail (' ' :: s) ∧
      ∀ b r tk, Sep r → isRedirTok tk.type = false → At L (s.reverse ++ b) r tk → ∃ tk0, At L b (s ++ r) tk0 ∧
        ∀ name, Ev fun m => functionBody L (parser L m) name tk0 = some (.funcdef [] name c, tk) := by
  obtain ⟨k, h1⟩ := printIndent_eq ml i (spaceOrNewline ml buf)
  obtain ⟨s, h2, h3, h4⟩ := hc ml i (spaceOrNewline ml buf ++ List.replicate k ' ')
  refine ⟨gap ml :: (List.replicate k ' ' ++ s), ?_, .inr ⟨_, rfl, ?_⟩, fun b r tk hr hrt htk => ?_⟩
  · rw [h1, h2, spaceOrNewline_eq]; simp
  · rw [show ' ' :: gap ml :: (List.replicate k ' ' ++ s) = (' ' :: gap ml :: List.replicate k ' ') ++ s from rfl, getLast?_append_ne h3.ne]
    exact h3.last
  · obtain ⟨tk0, h5, h6⟩ := h4 (List.replicate k ' ' ++ gap ml :: b) r tk hr hrt (htk.cast (by simp) rfl)
    have hnl : tk0.type ≠ .newline := by
      obtain ⟨m, hm⟩ := h6
      exact (compound_type (hm m (Nat.le_refl m))).1
    obtain ⟨tk1, h7, h8⟩ := (((NLs.of_at h5 hnl).spaces hL k).gap hL ml).newlines
    refine ⟨tk1, h7.cast rfl (by simp), fun name => ?_⟩
    have h9 : Ev fun m => (parser L m).compound tk0 = some (some c, tk) := Ev.succ h6
    refine h8.mono2 h9 fun m e1 e2 => ?_
    simp only [functionBody, e1, e2, Option.bind_eq_bind, Option.bind_some]

theorem function_read {R : Rec} {tk tk1 tk2 tk3 tk4 tk5 : Token} {c : Command} (h0 : tk.type = .function) (h1 : next L R tk = some tk1)
    (hw : tk1.word ≠ []) (h2 : next L R tk1 = some tk2) (h3 : tk2.type = .lparen) (h4 : next L R tk2 = some tk3) (h5 : tk3.type = .rparen)
    (h6 : next L R tk3 = some tk4) (h7 : functionBody L R tk1.word tk4 = some (c, tk5)) :
    compoundHead L R tk = some (some (c, tk5)) := by
  simp [compoundHead, h0, function, h1, hw, h2, h3, h4, h5, h6, h7]

theorem compound_noredir {m : Nat} {tk tk' : Token} {c : Command} (h : compoundHead L (parser L (m + 1)) tk = some (some (c, tk')))
    (hr : isRedirTok tk'.type = false) (hc : withRedirs [] c = c) : compound L (parser L (m + 1)) tk = some (some c, tk') := by
  simp only [compound, h, redirs, parser_fuel, redirsLoop, tryRedirect_none hr, Option.bind_eq_bind, Option.bind_some, hc]

theorem printCommand_func (ml : Bool) (i : Nat) (rs : List Redir) (name : Word) (c : Command) (b : List Char) :
    printCommand L ml i (.funcdef rs name c) b = printCommand L ml i c (printIndent ml i (spaceOrNewline ml (printWord L ml i name
      (b ++ (if isNameWord L name then [] else "function ".toList)) ++ "()".toList))) := rfl

theorem Follow.lparen {w : Word} (h : ¬EndsWithDollar w) (r : List Char) : Follow (isTokenDelimiter L) w ('(' :: r) := by
  refine ⟨lineCont_id (by decide), fun d hd => ?_⟩
  simp at hd
  subst hd
  exact ⟨by simp [isTokenDelimiter], fun he => absurd he h⟩

theorem comp_function (hL : LocaleOk L) {name : Word} {c : Command} (hw : ItemWord L name) (hname : isNameWord L name = false)
    (hd : ¬EndsWithDollar name) (hc : CompRT L c) : CompRT L (.funcdef [] name c) := by
  intro ml i buf
  obtain ⟨d, s, h1, h2, h3, h4, h5⟩ := hw.rt.at ml i (buf ++ "function ".toList)
  obtain ⟨s2, h6, h7, h8⟩ := func_body hL hc ml i (buf ++ "function ".toList ++ d :: s ++ "()".toList)
  refine ⟨'f' :: "unction ".toList ++ d :: s ++ "()".toList ++ s2, ?_, ?_, ?_⟩
  · rw [printCommand_func, hname]
    simp only [Bool.false_eq_true, if_false]
    rw [h1, h6]
    simp
  · refine Txt.of_head (by decide) ?_
    rcases h7 with h | ⟨t, h, hl⟩
    · cases h
    · cases h
      show (('f' :: "unction ".toList ++ d :: s ++ "()".toList) ++ s2).getLast? ≠ _
      cases s2 with
      | nil => simp at hl
      | cons e s2 =>
        rw [getLast?_append_ne (by simp)]
        rw [show ' ' :: e :: s2 = [' '] ++ e :: s2 from rfl, getLast?_append_ne (by simp)] at hl
        exact hl
  · intro b r tk hr hrt htk
    generalize hB : ' ' :: ("function".toList.reverse ++ b) = B
    obtain ⟨tk4, ha4, hev⟩ := h8 (')' :: '(' :: ((d :: s).reverse ++ B)) r tk hr hrt (htk.cast (by simp [← hB]) rfl)
    have ha3 := At.rparen hL ('(' :: ((d :: s).reverse ++ B)) (s2 ++ r)
    have ha2 := At.lparen hL ((d :: s).reverse ++ B) (')' :: (s2 ++ r))
    have ha1 := (h5 B ('(' :: ')' :: (s2 ++ r)) (Follow.lparen hd _)).1 (by simp)
    subst hB
    have ha0 := At.keyword hL "function".toList (by decide) b (Sep.space (d :: s ++ '(' :: ')' :: (s2 ++ r)))
    refine ⟨_, ha0.cast rfl (by simp), Ev.succ ?_⟩
    have hev' := ((ha4.and (ha3.and (ha2.and (ha1.space hL)))).and (hev name))
    obtain ⟨m0, hm0⟩ := hev'
    refine ⟨m0, fun m hm => ?_⟩
    obtain ⟨⟨e4, e3, e2, e1⟩, e5⟩ := hm0 (m + 1) (by omega)
    refine compound_noredir ?_ hrt rfl
    exact function_read (tk := wordToken [.str "function".toList] "function".toList b (' ' :: (d :: s ++ '(' :: ')' :: (s2 ++ r))))
      (tk1 := wordToken name (d :: s) (' ' :: ("function".toList.reverse ++ b)) ('(' :: ')' :: (s2 ++ r)))
      rfl e1 hw.ne e2 rfl e3 rfl e4 e5

theorem isNameWord_str {name : Word} (h : isNameWord L name = true) : ∃ s, name = [.str s] ∧ isNameBy (isNameChar L) s = true := by
  unfold isNameWord singleString at h
  split at h
  · rename_i s heq
    split at heq
    · cases heq
      exact ⟨s, rfl, h⟩
    · cases heq
  · cases h

theorem cmd_function (hL : LocaleOk L) {name : Word} {c : Command} (hname : isNameWord L name = true)
    (hk : ¬Keyword name) (hc : CompRT L c) : CmdRT L (.funcdef [] name c) := by
  obtain ⟨s, rfl, hs⟩ := isNameWord_str hname
  obtain ⟨d, t, hdt, hdig, hchars⟩ := isNameBy_chars hs
  have hne : s ≠ [] := by rw [hdt]; simp
  intro ml i buf
  obtain ⟨s2, h6, h7, h8⟩ := func_body hL hc ml i (buf ++ s ++ "()".toList)
  refine ⟨s ++ "()".toList ++ s2, ?_, ?_, ?_⟩
  · rw [printCommand_func, hname]
    simp only [if_true, List.append_nil, printWord, printUnit]
    rw [h6]
    simp
  · rw [hdt]
    refine Txt.of_head ?_ ?_
    · rintro rfl
      have := hchars '\\' (by rw [hdt]; simp)
      rw [isNameChar_alnum hL (by decide)] at this
      cases this
    · rcases h7 with h | ⟨t', h, hl⟩
      · cases h
      · cases h
        show ((d :: t ++ "()".toList) ++ s2).getLast? ≠ _
        cases s2 with
        | nil => simp at hl
        | cons e s2 =>
          rw [getLast?_append_ne (by simp)]
          rw [show ' ' :: e :: s2 = [' '] ++ e :: s2 from rfl, getLast?_append_ne (by simp)] at hl
          exact hl
  · intro b r tk hr he htk
    obtain ⟨tk4, ha4, hev⟩ := h8 (')' :: '(' :: (s.reverse ++ b)) r tk hr he.redir (htk.cast (by simp) rfl)
    have ha3 := At.rparen hL ('(' :: (s.reverse ++ b)) (s2 ++ r)
    have ha2 := At.lparen hL (s.reverse ++ b) (')' :: (s2 ++ r))
    have hdol : ¬EndsWithDollar [.str s] := by
      rintro ⟨w', hw'⟩
      have := congrArg List.getLast? hw'
      simp at this
      have := hchars '$' (by rw [this]; simp)
      rw [isNameChar_alnum hL (by decide)] at this
      cases this
    have ha1 := At.name hL hs b (Follow.lparen hdol (')' :: (s2 ++ r))) (by simp)
    refine ⟨_, ha1.cast rfl (by simp), ?_⟩
    have hev' := ((ha4.and (ha3.and ha2)).and (hev [.str s]))
    obtain ⟨m0, hm0⟩ := hev'
    refine ⟨m0 + 2, fun m hm => ?_⟩
    obtain ⟨m, rfl⟩ : ∃ k, m = k + 2 := ⟨m - 2, by omega⟩
    obtain ⟨⟨e4, e3, e2⟩, e5⟩ := hm0 (m + 2) (by omega)
    have ht : (wordToken [.str s] s b ('(' :: ')' :: (s2 ++ r))).type = .word := by
      rw [reservedWordOf_keyword] at hk
      exact Classical.not_not.1 hk
    have hc0 : compound L (parser L (m + 2)) (wordToken [.str s] s b ('(' :: ')' :: (s2 ++ r))) =
        some (none, wordToken [.str s] s b ('(' :: ')' :: (s2 ++ r))) := by
      simp [compound, compoundHead, ht]
    have hsplit : splitAssign L [.str s] = none := by
      rw [hdt] at hs ⊢
      simp only [splitAssign, skipName, hdig]
      simp only [isNameBy, skipName, hdig] at hs
      simp at hs
      simp only [Bool.false_eq_true, if_false]
      have : List.dropWhile (isNameChar L) (d :: t) = [] := by simpa using hs
      rw [this]
      split
      · rename_i heq
        have := congrArg Prod.snd heq
        cases this
      · rfl
    have hsim : simpleLoop L (parser L (m + 2)) (m + 2) true (wordToken [.str s] s b ('(' :: ')' :: (s2 ++ r))) =
        some (⟨[], [], [[.str s]]⟩, opToken .lparen ['('] (s.reverse ++ b) (')' :: (s2 ++ r))) := by
      refine simple_word (S := ⟨[], [], []⟩) (by rw [ht]; rfl) (by simp [wordToken]) (fun _ => hsplit) e2 ?_
      rw [simpleLoop, tryRedirect_none (by rfl)]
      simp [opToken]
    unfold command
    rw [if_neg (by rw [ht]; decide), hc0]
    simp only [parser_fuel, hsim, Option.bind_eq_bind, Option.bind_some]
    rw [if_neg (by simp)]
    simp only [tryFunction]
    rw [if_pos (by rfl), if_pos hname]
    have e3' : next L (parser L (m + 2)) (opToken .lparen ['('] (s.reverse ++ b) (')' :: (s2 ++ r))) =
      some (opToken .rparen [')'] ('(' :: (s.reverse ++ b)) (s2 ++ r)) := e3
    have e4' := expect_next (L := L) (R := parser L (m + 2)) (ty := .rparen) (tk := opToken .rparen [')'] ('(' :: (s.reverse ++ b)) (s2 ++ r)) rfl e4
    rw [e3', Option.bind_eq_bind, Option.bind_some, e4']
    exact e5

end Yash.Parser
