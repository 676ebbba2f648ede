import Verif.Parser.Compound2
/-!
# Pipelines and lists are read back
-/
set_option autoImplicit false

namespace Yash.Parser

open Syntax Spec
open Expand (Locale)

variable {L : Locale}

/-- Operator tokens have no word. -/
theorem nextToken_word {sp : Special} {st : Src} {tk : Token} (h : nextToken L sp st = some tk) (ht : opText tk.type ≠ none) :
    tk.word = [] := by
  simp only [nextToken] at h
  generalize skipComment (skipBlanks L st.before st.rest) = st' at h
  unfold tokenAt at h
  repeat' split at h
  all_goals first
    | (cases h; rfl)
    | skip
  all_goals cases h
  · simp [opText] at ht
  · exact absurd (reservedWordOf_type _).2 ht

theorem At.word {b r : List Char} {tk : Token} (h : At L b r tk) (ht : opText tk.type ≠ none) : tk.word = [] := by
  obtain ⟨m, hm⟩ := h
  exact nextToken_word (hm m (Nat.le_refl m)) ht

/-- A token that can start a command. -/
structure StartTok (tk : Token) : Prop where
  newline : tk.type ≠ .newline
  eoi : tk.type ≠ .eoi
  closing : isClosing tk.type = false

theorem simple_op {R : Rec} {n : Nat} {first : Bool} {tk tk' : Token} {S : Simple} (hw : tk.word = []) (hr : isRedirTok tk.type = false)
    (h : simpleLoop L R n first tk = some (S, tk')) : S = ⟨[], [], []⟩ ∧ tk' = tk := by
  cases n with
  | zero => simp [simpleLoop] at h
  | succ n =>
    rw [simpleLoop, tryRedirect_none hr] at h
    cases first <;> simp [tryAssign, splitAssign, hw] at h <;> exact ⟨h.1.symm, h.2.symm⟩

theorem command_start {R : Rec} {tk tk' : Token} {c : Command} (h : command L R tk = some (c, tk')) (hw : opText tk.type ≠ none → tk.word = []) :
    StartTok tk ∧ tk.type ≠ .bang := by
  unfold command at h
  split at h
  · cases h
  · rename_i hnb
    simp at hnb
    have key : tk.type = .newline ∨ tk.type = .eoi → False := by
      intro ht
      have hc : compound L R tk = some (none, tk) := by rcases ht with ht | ht <;> simp [compound, compoundHead, ht]
      have hwe : tk.word = [] := hw (by rcases ht with ht | ht <;> rw [ht] <;> decide)
      have hre : isRedirTok tk.type = false := by rcases ht with ht | ht <;> rw [ht] <;> rfl
      rw [hc] at h
      simp only [Option.bind_eq_bind] at h
      cases hs : simpleLoop L R R.fuel true tk with
      | none => simp [hs] at h
      | some p =>
        obtain ⟨S, tk1⟩ := p
        obtain ⟨rfl, rfl⟩ := simple_op hwe hre hs
        simp [hs] at h
    exact ⟨⟨fun ht => key (.inl ht), fun ht => key (.inr ht), hnb.2⟩, hnb.1.1⟩

/-! ## Pipelines -/

/-- The token after a pipeline. -/
structure PipeEnd (tk : Token) : Prop extends EndTok tk where
  pipe : tk.type ≠ .pipe

/-- The token after an and-or list. -/
structure AndEnd (tk : Token) : Prop extends PipeEnd tk where
  ampamp : tk.type ≠ .ampamp
  pipepipe : tk.type ≠ .pipepipe

/-- What follows a command in a pipeline (parser.c:1990-2007). -/
def commandsRest (L : Locale) (R : Rec) (n : Nat) (tk1 : Token) : Option (List Command × Token) :=
  if tk1.type == .pipe then do
    let tk2 ← next L R tk1
    let tk3 ← newlines L R tk2
    commandsLoop L R n tk3
  else some ([], tk1)

theorem commandsLoop_rest {R : Rec} {n : Nat} {tk tk1 tk2 : Token} {c : Command} {cs : List Command} (h1 : command L R tk = some (c, tk1))
    (h2 : commandsRest L R n tk1 = some (cs, tk2)) : commandsLoop L R (n + 1) tk = some (c :: cs, tk2) := by
  rw [commandsLoop, h1]
  simp only [Option.bind_eq_bind, Option.bind_some]
  unfold commandsRest at h2
  split at h2
  · rename_i ht
    rw [if_pos ht]
    cases h3 : next L R tk1 with
    | none => simp [h3] at h2
    | some tk3 =>
      simp only [h3, Option.bind_eq_bind, Option.bind_some] at h2 ⊢
      cases h4 : newlines L R tk3 with
      | none => simp [h4] at h2
      | some tk4 =>
        simp only [h4, Option.bind_some] at h2 ⊢
        rw [h2]
        rfl
  · rename_i ht
    rw [if_neg ht]
    cases h2
    rfl

theorem commands_tail (hL : LocaleOk L) (cs : List Command) (h : ∀ c ∈ cs, CmdRT L c) (ml : Bool) (i : Nat) (buf : List Char) :
    ∃ t, printCommands L ml i false cs (buf ++ [' ']) = buf ++ t ++ [' '] ∧ Tail t ∧
      ∀ b r tk, Sep r → PipeEnd tk → At L (t.reverse ++ b) r tk → ∃ tk0, At L b (t ++ r) tk0 ∧ EndTok tk0 ∧
        Ev2 fun m n => commandsRest L (parser L m) n tk0 = some (cs, tk) := by
  induction cs generalizing buf with
  | nil =>
    refine ⟨[], by simp [printCommands], Tail.nil, fun b r tk hr he htk => ⟨tk, by simpa using htk, he.toEndTok, ?_⟩⟩
    refine ⟨0, fun m n _ _ => ?_⟩
    simp [commandsRest, he.pipe]
  | cons c cs ih =>
    obtain ⟨s, h1, h2, h3⟩ := h c (by simp) ml i (buf ++ [' '] ++ "| ".toList)
    obtain ⟨t, h4, h5, h6⟩ := ih (fun c' hc' => h c' (by simp [hc'])) (buf ++ [' '] ++ "| ".toList ++ s)
    refine ⟨' ' :: '|' :: ' ' :: s ++ t, ?_, ?_, fun b r tk hr he htk => ?_⟩
    · rw [printCommands]
      simp only [Bool.false_eq_true, if_false]
      rw [h1, h4]
      simp
    · have : Txt ('|' :: ' ' :: s) := Txt.of_head (by decide) (by
        rw [show '|' :: ' ' :: s = ['|', ' '] ++ s from rfl, getLast?_append_ne h2.ne]; exact h2.last)
      exact this.space.append h5
    · obtain ⟨tk1, ha1, he1, hev1⟩ := h6 (s.reverse ++ ' ' :: '|' :: ' ' :: b) r tk hr he (htk.cast (by simp) rfl)
      obtain ⟨tk2, ha2, hev2⟩ := h3 (' ' :: '|' :: ' ' :: b) (t ++ r) tk1 (h5.sep hr) he1 ha1
      have ha3 := (At.pipe hL (' ' :: b) (r := ' ' :: (s ++ (t ++ r))) (lineCont_id (by decide)) (by simp)).space hL
      have hst : StartTok tk2 := by
        obtain ⟨m, hm⟩ := hev2
        exact (command_start (hm m (Nat.le_refl m)) ha2.word).1
      refine ⟨_, ha3.cast rfl (by simp), ⟨rfl, rfl, by simp [opToken]⟩, ?_⟩
      obtain ⟨m0, hm0⟩ := ((ha2.space hL).and hev2).two.and hev1
      refine ⟨m0 + 1, fun m n hm hn => ?_⟩
      obtain ⟨m, rfl⟩ : ∃ k, m = k + 1 := ⟨m - 1, by omega⟩
      obtain ⟨n, rfl⟩ : ∃ k, n = k + 1 := ⟨n - 1, by omega⟩
      obtain ⟨⟨e1, e2⟩, e3⟩ := hm0 (m + 1) n (by omega) (by omega)
      have e1' : next L (parser L (m + 1)) (opToken .pipe ['|'] (' ' :: b) (' ' :: (s ++ (t ++ r)))) = some tk2 := e1
      unfold commandsRest
      rw [if_pos (by rfl), e1']
      simp only [Option.bind_eq_bind, Option.bind_some]
      rw [newlines_other hst.newline]
      exact commandsLoop_rest e2 e3

/-- A pipeline is read back; `!` and `cs` are its parts. -/
theorem pipeline_read (hL : LocaleOk L) {cs : List Command} (hne : cs ≠ []) (h : ∀ c ∈ cs, CmdRT L c) (neg : Bool) (ml : Bool) (i : Nat)
    (buf : List Char) :
    ∃ s, printCommands L ml i true cs (buf ++ (if neg then "! ".toList else [])) = buf ++ s ++ [' '] ∧ Txt s ∧
      ∀ b r tk, Sep r → PipeEnd tk → At L (s.reverse ++ b) r tk → ∃ tk0, At L b (s ++ r) tk0 ∧ StartTok tk0 ∧
        Ev fun m => ∀ cond, pipeline L (parser L m) cond tk0 = some (.mk cs neg cond, tk) := by
  cases cs with
  | nil => exact absurd rfl hne
  | cons c cs =>
    obtain ⟨s, h1, h2, h3⟩ := h c (by simp) ml i (buf ++ (if neg then "! ".toList else []))
    obtain ⟨t, h4, h5, h6⟩ := commands_tail hL cs (fun c' hc' => h c' (by simp [hc'])) ml i (buf ++ (if neg then "! ".toList else []) ++ s)
    refine ⟨(if neg then "! ".toList else []) ++ s ++ t, ?_, ?_, fun b r tk hr he htk => ?_⟩
    · rw [printCommands]
      simp only [if_true]
      rw [h1, h4]
      simp
    · cases neg
      · simpa using h2.tail h5
      · refine Txt.of_head (by decide) ?_
        show ("! ".toList ++ s ++ t).getLast? ≠ _
        rw [List.append_assoc, getLast?_append_ne (by simp [h2.ne])]
        exact (h2.tail h5).last
    · obtain ⟨tk1, ha1, he1, hev1⟩ := h6 (s.reverse ++ ((if neg then "! ".toList else []).reverse ++ b)) r tk hr he (htk.cast (by simp) rfl)
      obtain ⟨tk2, ha2, hev2⟩ := h3 ((if neg then "! ".toList else []).reverse ++ b) (t ++ r) tk1 (h5.sep hr) he1 ha1
      have hst : StartTok tk2 ∧ tk2.type ≠ .bang := by
        obtain ⟨m, hm⟩ := hev2
        exact command_start (hm m (Nat.le_refl m)) ha2.word
      have hloop : Ev fun m => commandsLoop L (parser L m) m tk2 = some (c :: cs, tk) := by
        refine (hev2.two.and hev1).pred.mono ?_
        rintro _ ⟨k, rfl, e1, e2⟩
        exact commandsLoop_rest e1 e2
      cases neg with
      | false =>
        refine ⟨tk2, ha2.cast (by simp) (by simp), hst.1, hloop.mono fun m e cond => ?_⟩
        simp only [pipeline]
        rw [if_neg (by simp [hst.2]), parser_fuel, e]
        rfl
      | true =>
        have ha3 := At.keyword hL "!".toList (by decide) b (Sep.space (s ++ (t ++ r)))
        refine ⟨_, ha3.cast rfl (by simp), ⟨by show reservedWord "!".toList ≠ _; decide, by show reservedWord "!".toList ≠ _; decide, rfl⟩, ?_⟩
        have ha2' : At L (' ' :: '!' :: b) (s ++ (t ++ r)) tk2 := ha2
        refine (ha2'.space hL).mono2 hloop fun m e1 e2 cond => ?_
        have e1' : next L (parser L m) (wordToken [.str "!".toList] "!".toList b (' ' :: (s ++ (t ++ r)))) = some tk2 := e1
        simp only [pipeline]
        rw [if_pos (by rfl), e1']
        simp only [Option.bind_eq_bind, Option.bind_some, parser_fuel, e2]

/-- What follows a pipeline in an and-or list (parser.c:1925-1935). -/
def pipelinesRest (L : Locale) (R : Rec) (n : Nat) (tk1 : Token) : Option (List Pipeline × Token) :=
  if tk1.type == .ampamp || tk1.type == .pipepipe then do
    let tk2 ← next L R tk1
    let tk3 ← newlines L R tk2
    pipelinesLoop L R n (tk1.type == .ampamp) tk3
  else some ([], tk1)

theorem pipelinesLoop_rest {R : Rec} {n : Nat} {cond : Bool} {tk tk1 tk2 : Token} {p : Pipeline} {ps : List Pipeline}
    (h1 : pipeline L R cond tk = some (p, tk1))
    (h2 : pipelinesRest L R n tk1 = some (ps, tk2)) : pipelinesLoop L R (n + 1) cond tk = some (p :: ps, tk2) := by
  rw [pipelinesLoop, h1]
  simp only [Option.bind_eq_bind, Option.bind_some]
  unfold pipelinesRest at h2
  split at h2
  · rename_i ht
    rw [if_pos ht]
    cases h3 : next L R tk1 with
    | none => simp [h3] at h2
    | some tk3 =>
      simp only [h3, Option.bind_eq_bind, Option.bind_some] at h2 ⊢
      cases h4 : newlines L R tk3 with
      | none => simp [h4] at h2
      | some tk4 =>
        simp only [h4, Option.bind_some] at h2 ⊢
        rw [h2]
        rfl
  · rename_i ht
    rw [if_neg ht]
    cases h2
    rfl

/-- The commands of a pipeline are read back, and there is at least one. -/
def PipeRT (L : Locale) : Pipeline → Prop
  | .mk cs _ _ => cs ≠ [] ∧ ∀ c ∈ cs, CmdRT L c

theorem pipelines_tail (hL : LocaleOk L) (ps : List Pipeline) (h : ∀ p ∈ ps, PipeRT L p) (ml : Bool) (i : Nat) (buf : List Char) :
    ∃ t, printPipelines L ml i false ps (buf ++ [' ']) = buf ++ t ++ [' '] ∧ Tail t ∧
      ∀ b r tk, Sep r → AndEnd tk → At L (t.reverse ++ b) r tk → ∃ tk0, At L b (t ++ r) tk0 ∧ PipeEnd tk0 ∧
        Ev2 fun m n => pipelinesRest L (parser L m) n tk0 = some (ps, tk) := by
  induction ps generalizing buf with
  | nil =>
    refine ⟨[], by simp [printPipelines], Tail.nil, fun b r tk hr he htk => ⟨tk, by simpa using htk, he.toPipeEnd, ?_⟩⟩
    refine ⟨0, fun m n _ _ => ?_⟩
    simp [pipelinesRest, he.ampamp, he.pipepipe]
  | cons p ps ih =>
    obtain ⟨cs, neg, cond⟩ := p
    obtain ⟨hne, hcs⟩ := h (.mk cs neg cond) (by simp)
    obtain ⟨k, hk⟩ := printIndent_eq ml i (spaceOrNewline ml (buf ++ [' '] ++ (if cond then "&&".toList else "||".toList)))
    obtain ⟨s, h1, h2, h3⟩ := pipeline_read hL hne hcs neg ml i (spaceOrNewline ml (buf ++ [' '] ++ (if cond then "&&".toList else "||".toList)) ++ List.replicate k ' ')
    obtain ⟨t, h4, h5, h6⟩ := ih (fun p' hp' => h p' (by simp [hp'])) (spaceOrNewline ml (buf ++ [' '] ++ (if cond then "&&".toList else "||".toList)) ++ List.replicate k ' ' ++ s)
    refine ⟨' ' :: ((if cond then "&&".toList else "||".toList) ++ gap ml :: (List.replicate k ' ' ++ s)) ++ t, ?_, ?_, fun b r tk hr he htk => ?_⟩
    · rw [printPipelines, printPipeline]
      simp only [Bool.false_eq_true, if_false]
      rw [hk, h1, h4, spaceOrNewline_eq]
      simp
    · have : Txt ((if cond then "&&".toList else "||".toList) ++ gap ml :: (List.replicate k ' ' ++ s)) := by
        have hl : ((if cond then "&&".toList else "||".toList) ++ gap ml :: (List.replicate k ' ' ++ s)).getLast? ≠ some ' ' := by
          rw [show (if cond then "&&".toList else "||".toList) ++ gap ml :: (List.replicate k ' ' ++ s) =
            ((if cond then "&&".toList else "||".toList) ++ gap ml :: List.replicate k ' ') ++ s by simp, getLast?_append_ne h2.ne]
          exact h2.last
        cases cond <;> exact Txt.of_head (by decide) hl
      exact this.space.append h5
    · generalize hB : gap ml :: ((if cond then "&&".toList else "||".toList).reverse ++ ' ' :: b) = B
      obtain ⟨tk1, ha1, he1, hev1⟩ := h6 (s.reverse ++ (List.replicate k ' ' ++ B)) r tk hr he (htk.cast (by simp [← hB]) rfl)
      obtain ⟨tk2, ha2, hst, hev2⟩ := h3 (List.replicate k ' ' ++ B) (t ++ r) tk1 (h5.sep hr) he1 ha1
      subst hB
      obtain ⟨tk3, ha3, hev3⟩ := (((NLs.of_at ha2 hst.newline).spaces hL k).gap hL ml).newlines
      have ha4 : At L b (' ' :: ((if cond then "&&".toList else "||".toList) ++ gap ml :: (List.replicate k ' ' ++ (s ++ (t ++ r)))))
          (opToken (if cond then .ampamp else .pipepipe) (if cond then "&&".toList else "||".toList) (' ' :: b)
            (gap ml :: (List.replicate k ' ' ++ (s ++ (t ++ r))))) := by
        cases cond
        · exact (At.pipepipe hL _ _).space hL
        · exact (At.ampamp hL _ _).space hL
      refine ⟨_, ha4.cast rfl (by simp), ⟨⟨rfl, ?_, ?_⟩, ?_⟩, ?_⟩
      · cases cond <;> rfl
      · cases cond <;> simp [opToken]
      · cases cond <;> simp [opToken]
      · obtain ⟨m0, hm0⟩ := (ha3.and (hev3.and hev2)).two.and hev1
        refine ⟨m0 + 1, fun m n hm hn => ?_⟩
        obtain ⟨n, rfl⟩ : ∃ k, n = k + 1 := ⟨n - 1, by omega⟩
        obtain ⟨⟨e1, e2, e3⟩, e4⟩ := hm0 m n (by omega) (by omega)
        generalize htk4 : opToken (if cond then .ampamp else .pipepipe) (if cond then "&&".toList else "||".toList) (' ' :: b)
            (gap ml :: (List.replicate k ' ' ++ (s ++ (t ++ r)))) = tk4
        have e1' : next L (parser L m) tk4 = some tk3 := by subst htk4; exact e1
        have ht : (tk4.type == .ampamp || tk4.type == .pipepipe) = true ∧ (tk4.type == .ampamp) = cond := by
          subst htk4; cases cond <;> exact ⟨rfl, rfl⟩
        unfold pipelinesRest
        rw [if_pos ht.1, e1', ht.2]
        simp only [Option.bind_eq_bind, Option.bind_some, e2]
        exact pipelinesLoop_rest (e3 cond) e4

/-! ## And-or lists -/

/-- The pipelines of an and-or list are read back.  The condition of the first one is not used. -/
def AndRT (L : Locale) : AndOr → Prop
  | .mk ps _ => (∀ p ∈ ps, PipeRT L p) ∧ ∃ cs neg ps', ps = .mk cs neg false :: ps'

theorem and_read (hL : LocaleOk L) {ps : List Pipeline} (h : ∀ p ∈ ps, PipeRT L p) (hf : ∃ cs neg ps', ps = .mk cs neg false :: ps')
    (ml : Bool) (i : Nat) (buf : List Char) :
    ∃ k s, printPipelines L ml i true ps buf = buf ++ List.replicate k ' ' ++ s ++ [' '] ∧ Txt s ∧
      ∀ b r tk, Sep r → AndEnd tk → At L (s.reverse ++ b) r tk → ∃ tk0, At L b (s ++ r) tk0 ∧ StartTok tk0 ∧
        Ev fun m => pipelinesLoop L (parser L m) m false tk0 = some (ps, tk) := by
  obtain ⟨cs, neg, ps, rfl⟩ := hf
  obtain ⟨hne, hcs⟩ := h (.mk cs neg false) (by simp)
  obtain ⟨k, hk⟩ := printIndent_eq ml i buf
  obtain ⟨s, h1, h2, h3⟩ := pipeline_read hL hne hcs neg ml i (buf ++ List.replicate k ' ')
  obtain ⟨t, h4, h5, h6⟩ := pipelines_tail hL ps (fun p' hp' => h p' (by simp [hp'])) ml i (buf ++ List.replicate k ' ' ++ s)
  refine ⟨k, s ++ t, ?_, h2.tail h5, fun b r tk hr he htk => ?_⟩
  · rw [printPipelines, printPipeline]
    simp only [if_true]
    rw [hk, h1, h4]
    simp
  · obtain ⟨tk1, ha1, he1, hev1⟩ := h6 (s.reverse ++ b) r tk hr he (htk.cast (by simp) rfl)
    obtain ⟨tk2, ha2, hst, hev2⟩ := h3 b (t ++ r) tk1 (h5.sep hr) he1 ha1
    refine ⟨tk2, ha2.cast rfl (by simp), hst, ?_⟩
    refine (hev2.two.and hev1).pred.mono ?_
    rintro _ ⟨k, rfl, e1, e2⟩
    exact pipelinesLoop_rest (e1 false) e2

theorem AndEnd.of_op {tk : Token} (hw : tk.word = []) (ht : tk.type = .newline ∨ isClosing tk.type = true ∨ tk.type = .eoi) : AndEnd tk := by
  have h : isRedirTok tk.type = false ∧ tk.type ≠ .lparen ∧ tk.type ≠ .pipe ∧ tk.type ≠ .ampamp ∧ tk.type ≠ .pipepipe := by
    cases h : tk.type <;> simp_all [isRedirTok, isClosing, startsLess, startsGreater]
  exact ⟨⟨⟨hw, h.1, h.2.1⟩, h.2.2.1⟩, h.2.2.2.1, h.2.2.2.2⟩

theorem separator_op {R : Rec} {tk tk1 : Token} (ht : (tk.type == .amp || tk.type == .semicolon) = true) (h : next L R tk = some tk1) :
    separator L R tk = some (false, tk1) := by
  unfold separator
  rw [if_pos ht, h]
  rfl

/-- The operator and the space after an and-or list. -/
theorem sep_read (hL : LocaleOk L) (ml final async : Bool) (B R : List Char) (tk1 : Token)
    (h : NLs L ((if final then [] else [gap ml]) ++ (if async then ['&'] else if !ml && !final then [';'] else []) ++ B) R tk1)
    (hf : final = true → Sep R ∧ R.head? ≠ some '&' ∧ tk1.word = [] ∧ (isClosing tk1.type = true ∨ tk1.type = .eoi)) :
    Sep ((if async then ['&'] else if !ml && !final then [';'] else []) ++ (if final then [] else [gap ml]) ++ R) ∧
    ∃ tke need tk3, At L B ((if async then ['&'] else if !ml && !final then [';'] else []) ++ (if final then [] else [gap ml]) ++ R) tke ∧
      AndEnd tke ∧ (tke.type == .amp) = async ∧ (need = true → tk3.type = .newline ∨ final = true) ∧
      Ev fun m => separator L (parser L m) tke = some (need, tk3) ∧ newlines L (parser L m) tk3 = some tk1 := by
  cases async with
  | true =>
    have h' : NLs L ('&' :: B) ((if final then [] else [gap ml]) ++ R) tk1 := by
      cases final
      · exact NLs.gap hL ml h
      · exact h
    obtain ⟨tk3, ha, hev⟩ := h'.newlines
    have hamp := At.amp hL B (r := (if final then [] else [gap ml]) ++ R)
      (by cases final
          · exact gap_norm ml _
          · exact ((hf rfl).1.follow hL []).2.2.2.2)
      (by cases final
          · cases ml <;> simp [gap]
          · exact (hf rfl).2.1)
    refine ⟨by simpa using Sep.amp _, _, false, tk3, by simpa using hamp, ⟨⟨⟨rfl, rfl, by simp [opToken]⟩, by simp [opToken]⟩, by simp [opToken], by simp [opToken]⟩,
      rfl, by simp, ?_⟩
    refine ha.mono2 hev fun m e1 e2 => ⟨?_, e2⟩
    exact separator_op rfl e1
  | false =>
    cases final with
    | true =>
      have hf := hf rfl
      obtain ⟨tk3, ha, hev⟩ := (show NLs L B R tk1 by simpa using h).newlines
      have ht : tk3.type = .newline ∨ isClosing tk3.type = true ∨ tk3.type = .eoi := by
        by_cases hn : tk3.type = .newline
        · exact .inl hn
        · obtain ⟨m, hm⟩ := hev
          have : newlines L (parser L (m + 1)) tk3 = some tk1 := hm (m + 1) (by omega)
          rw [newlines_other hn] at this
          cases this
          exact .inr hf.2.2.2
      have hw : tk3.word = [] := by
        by_cases hn : tk3.type = .newline
        · exact ha.word (by rw [hn]; decide)
        · obtain ⟨m, hm⟩ := hev
          have : newlines L (parser L (m + 1)) tk3 = some tk1 := hm (m + 1) (by omega)
          rw [newlines_other hn] at this
          cases this
          exact hf.2.2.1
      refine ⟨by simpa using hf.1, tk3, true, tk3, by simpa using ha, .of_op hw ht, ?_, fun _ => .inr rfl, hev.mono fun m e => ⟨?_, e⟩⟩
      · rcases ht with ht | ht | ht <;> cases h : tk3.type <;> simp_all [isClosing]
      · unfold separator
        rw [if_neg]
        rcases ht with ht | ht | ht <;> cases h : tk3.type <;> simp_all [isClosing]
    | false =>
      cases ml with
      | true =>
        have h' : NLs L ('\n' :: B) R tk1 := h
        obtain ⟨tk3, ha, hev⟩ := (NLs.newline hL h').newlines
        obtain ⟨m0, hm0⟩ := ha
        have hn := (At.newline hL B R)
        obtain ⟨m1, hm1⟩ := hn
        have heq : tk3 = opToken .newline ['\n'] B R := by
          exact Option.some.inj ((hm0 (m0 + m1) (by omega)).symm.trans (hm1 (m0 + m1) (by omega)))
        subst heq
        refine ⟨Sep.newline _, _, true, _, ⟨m0, hm0⟩, .of_op rfl (.inl rfl), rfl, fun _ => .inl rfl, hev.mono fun m e => ⟨?_, e⟩⟩
        unfold separator
        rw [if_neg (by simp [opToken])]
      | false =>
        have h' : NLs L (' ' :: ';' :: B) R tk1 := h
        obtain ⟨tk3, ha, hev⟩ := (NLs.space hL h').newlines
        have hsemi := At.semicolon hL B (r := ' ' :: R) (lineCont_id (by decide)) (by simp)
        refine ⟨Sep.semi _, _, false, tk3, hsemi, ⟨⟨⟨rfl, rfl, by simp [opToken]⟩, by simp [opToken]⟩, by simp [opToken], by simp [opToken]⟩,
          rfl, by simp, ?_⟩
        refine ha.mono2 hev fun m e1 e2 => ⟨?_, e2⟩
        exact separator_op rfl e1

/-- Lists of and-or lists are read back. -/
theorem list_rt (hL : LocaleOk L) (l : List AndOr) (h : ∀ a ∈ l, AndRT L a) : ListRT L l := by
  induction l with
  | nil => exact ListRT.nil
  | cons a l ih =>
    obtain ⟨ps, async⟩ := a
    intro ml i bare buf
    obtain ⟨hps, hcs⟩ := h (.mk ps async) (by simp)
    obtain ⟨k, sa, h1, h2, h3⟩ := and_read hL hps hcs ml i buf
    generalize hfin : (l.isEmpty && bare) = final
    have hfin' : (!l.isEmpty || !bare) = !final := by rw [← hfin]; cases l.isEmpty <;> cases bare <;> rfl
    generalize hx : (if async then ['&'] else if !ml && !final then [';'] else ([] : List Char)) = x
    generalize hy : (if final then [] else [gap ml]) = y
    obtain ⟨s, h4, h5, h6, h7, h8⟩ := ih (fun a' ha' => h a' (by simp [ha'])) ml i bare (buf ++ List.replicate k ' ' ++ sa ++ x ++ y)
    have hsep : ∀ r, (bare = true → Sep r) → Sep (x ++ y ++ s ++ r) := by
      intro r hr
      subst hx hy
      cases async with
      | true => exact Sep.amp _
      | false =>
        cases final with
        | true =>
          simp at hfin
          obtain ⟨rfl, rfl⟩ := hfin
          simp [printAndOrs] at h4
          simpa [h4] using hr rfl
        | false =>
          cases ml
          · exact Sep.semi _
          · exact Sep.newline _
    refine ⟨List.replicate k ' ' ++ sa ++ x ++ y ++ s, ?_, by simp [h2.ne], ?_, ?_, ?_⟩
    · rw [printAndOrs, hfin']
      simp only [printAndOr, h1]
      rw [h2.trim, hx]
      rw [show (if (!final) = true then spaceOrNewline ml (buf ++ List.replicate k ' ' ++ sa ++ x) else buf ++ List.replicate k ' ' ++ sa ++ x)
        = buf ++ List.replicate k ' ' ++ sa ++ x ++ y by subst hy; cases final <;> simp [spaceOrNewline_eq], h4]
      simp
    · rintro rfl
      cases l with
      | nil =>
        simp [printAndOrs] at h4
        have : y = [] := by subst hy hfin; rfl
        subst h4 this
        simp only [List.append_nil]
        cases hxe : x with
        | nil => rw [List.append_nil, getLast?_append_ne h2.ne]; exact h2.last
        | cons d x' =>
          rw [← hxe, getLast?_append_ne (by simp [hxe])]
          subst hx
          split
          · decide
          · split
            · decide
            · decide
      | cons a' l' =>
        rw [getLast?_append_ne (h5 (by simp))]
        exact h6 rfl
    · intro r hr hn
      cases k with
      | succ k => exact lineCont_id (by decide)
      | zero =>
        have := h2.norm _ (hsep r hr)
        simpa using this
    · intro b r tkc hc ht hr
      obtain ⟨tk1, ha1, hev1⟩ := h8 (y.reverse ++ x.reverse ++ sa.reverse ++ List.replicate k ' ' ++ b) r tkc (hc.cast (by simp) rfl) ht hr
      have hyr : y.reverse = y := by subst hy; cases final <;> rfl
      have hxr : x.reverse = x := by subst hx; cases async <;> cases (!ml && !final) <;> rfl
      rw [hyr, hxr] at ha1
      obtain ⟨hs1, tke, need, tk3, ha2, he2, hamp, hneed, hev2⟩ := sep_read hL ml final async (sa.reverse ++ List.replicate k ' ' ++ b) (s ++ r) tk1
        (ha1.cast (by rw [hx, hy]; simp) rfl) (by
          rintro rfl
          simp at hfin
          obtain ⟨rfl, rfl⟩ := hfin
          simp [printAndOrs] at h4
          subst h4
          obtain ⟨g1, g2, g3⟩ := hr rfl
          have : tk1 = tkc := by
            obtain ⟨m, hm⟩ := hev1
            obtain ⟨tk0, hb, hev⟩ := ha1.newlines
            obtain ⟨m', hm'⟩ := hev
            have e1 := hm (m + m' + 1) (m + m' + 1) (by omega) (by omega) true tk0 (hm' _ (by omega)) (fun _ => .inr rfl)
            rw [listLoop, hm' _ (by omega)] at e1
            simp only [Option.bind_eq_bind, Option.bind_some] at e1
            split at e1
            · cases e1; rfl
            · exfalso
              revert e1
              cases andOr L (parser L (m + m' + 1)) tk1 with
              | none => simp
              | some p =>
                obtain ⟨a, t⟩ := p
                simp only [Option.bind_some]
                cases separator L (parser L (m + m' + 1)) t with
                | none => simp
                | some p =>
                  obtain ⟨a, t⟩ := p
                  simp only [Option.bind_some]
                  cases listLoop L (parser L (m + m' + 1)) (m + m') a t with
                  | none => simp
                  | some p => simp
          subst this
          exact ⟨g1, g2, g3, ht⟩)
      rw [hx, hy] at ha2 hs1
      obtain ⟨tk0, ha3, hst, hev3⟩ := h3 (List.replicate k ' ' ++ b) (x ++ y ++ (s ++ r)) tke hs1 he2 (ha2.cast (by simp) rfl)
      refine ⟨tk0, ((NLs.of_at ha3 hst.newline).spaces hL k).cast rfl (by simp), ?_⟩
      refine Ev2.succ (((hev2.and hev3).two.and hev1).mono ?_)
      rintro m n ⟨⟨⟨e1, e2⟩, e3⟩, e4⟩ need' tk e5 hneed'
      rw [listLoop, e5]
      simp only [Option.bind_eq_bind, Option.bind_some]
      rw [if_neg (by
        simp [hst.eoi, hst.closing]
        intro hn
        simpa using hneed' hn)]
      have e6 : andOr L (parser L m) tk0 = some (.mk ps async, tke) := by
        simp only [andOr, parser_fuel, e3]
        simp [hamp]
      rw [e6]
      simp only [Option.bind_some, e1]
      rw [e4 need tk3 e2 (fun hn => (hneed hn).imp_right (by rintro rfl; simp at hfin; exact hfin.1))]
      rfl

end Yash.Parser
