import Verif.Restore.Exec
import Verif.Function.Model
/-!
# What is printed for a function is read as the definition of the function
-/
set_option autoImplicit false

namespace Yash.Function

open Yash.Syntax Yash.Parser Yash.Parser.Spec
open Yash.Expand (Locale quoteAsWord)
open Yash.Restore (oneCommand Literal isName)

variable {L : Locale}

/-- The text is read as the command, whatever is around it. -/
def Reads (L : Locale) (s : List Char) (c : Command) : Prop :=
  ∀ b r tk, Sep r → EndTok tk → At L (s.reverse ++ b) r tk → ∃ tk0, At L b (s ++ r) tk0 ∧
    Ev fun m => command L (parser L m) tk0 = some (c, tk)

theorem reads_line (hL : LocaleOk L) {s : List Char} {c : Command} (h : Reads L s c) (rest : List Char) :
    parseLine L (s ++ '\n' :: rest) = some (oneCommand c, rest) := by
  have ha := At.newline hL s.reverse rest
  obtain ⟨tk0, ha0, hev⟩ := h [] ('\n' :: rest) _ (Sep.newline rest) (AndEnd.of_op rfl (.inl rfl)).toEndTok (ha.cast (by simp) rfl)
  have hst : StartTok tk0 ∧ tk0.type ≠ .bang := by
    obtain ⟨m, hm⟩ := hev
    exact command_start (hm m (Nat.le_refl m)) ha0.word
  obtain ⟨m1, hm1⟩ := ha0
  obtain ⟨m2, hm2⟩ := hev
  have hend : parseLineN L (m1 + m2 + ((s ++ '\n' :: rest).length + 2)) (s ++ '\n' :: rest) = some (oneCommand c, rest) := by
    generalize hn : m1 + m2 + (s ++ '\n' :: rest).length = n
    have e0 : m1 + m2 + ((s ++ '\n' :: rest).length + 2) = n + 2 := by omega
    rw [e0]
    have e1 : nextToken L (parser L (n + 2)).special ⟨[], s ++ '\n' :: rest⟩ = some tk0 := hm1 (n + 2) (by omega)
    have e2 := hm2 (n + 2) (by omega)
    simp only at e2
    have e3 : commandsLoop L (parser L (n + 2)) (n + 2) tk0 = some ([c], opToken .newline ['\n'] s.reverse rest) :=
      commandsLoop_rest e2 (cs := []) (by rw [commandsRest, if_neg (by simp [opToken])])
    have e4 : pipeline L (parser L (n + 2)) false tk0 = some (.mk [c] false false, opToken .newline ['\n'] s.reverse rest) := by
      simp only [pipeline]
      rw [if_neg (by simp [hst.2]), parser_fuel, e3]
      rfl
    have e5 : pipelinesLoop L (parser L (n + 2)) (n + 2) false tk0 = some ([.mk [c] false false], opToken .newline ['\n'] s.reverse rest) :=
      pipelinesLoop_rest e4 (ps := []) (by rw [pipelinesRest, if_neg (by simp [opToken])])
    have e6 : andOr L (parser L (n + 2)) tk0 = some (.mk [.mk [c] false false] false, opToken .newline ['\n'] s.reverse rest) := by
      simp only [andOr, parser_fuel, e5]
      rfl
    have e7 : separator L (parser L (n + 2)) (opToken .newline ['\n'] s.reverse rest) = some (true, opToken .newline ['\n'] s.reverse rest) := by
      unfold separator
      rw [if_neg (by simp [opToken])]
    simp only [parseLineN, e1, Option.bind_eq_bind, Option.bind_some]
    rw [lineLoop, if_neg (by simp [hst.1.newline, hst.1.eoi]), if_neg (by simp), e6]
    simp only [Option.bind_eq_bind, Option.bind_some, e7]
    rw [lineLoop, if_pos (by simp [opToken])]
    rfl
  rwa [parse_ends hL.newline _ _ (by omega)] at hend

/-- What `command` reads is a compound command if it is not a simple one and not a definition without the keyword. -/
theorem command_compound {R : Rec} {tk tk' : Token} {c : Command} (h : command L R tk = some (c, tk'))
    (h1 : ∀ rs as ws, c ≠ .simple rs as ws) (h2 : ¬NamedFunction L c) : compound L R tk = some (some c, tk') := by
  unfold command at h
  split at h
  · cases h
  · split at h
    · cases h
    · rename_i heq
      cases h
      exact heq
    · simp only [Option.bind_eq_bind, Option.bind_eq_some_iff] at h
      obtain ⟨⟨S, tk1⟩, -, h⟩ := h
      split at h
      · cases h
      · unfold tryFunction at h
        split at h
        · split at h
          · split at h
            · rename_i hn
              simp only [Option.bind_eq_bind, Option.bind_eq_some_iff] at h
              obtain ⟨tk2, -, tk3, -, h⟩ := h
              simp only [functionBody, Option.bind_eq_bind, Option.bind_eq_some_iff] at h
              obtain ⟨tk4, -, h⟩ := h
              split at h
              · cases h
                exact absurd ((name_iff _).2 hn) h2
              · cases h
            · cases h
          · cases h
        · cases h
          exact absurd rfl (h1 _ _ _)

/-- The body as it is printed. -/
theorem body_reads {c : Command} (hc : CmdRT L c) (h1 : ∀ rs as ws, c ≠ .simple rs as ws) (h2 : ¬NamedFunction L c) :
    ∃ s, commandToWcs L c true = s ++ ['\n'] ∧ ∀ b r tk, Sep r → EndTok tk → At L (s.reverse ++ b) r tk → ∃ tk0, At L b (s ++ r) tk0 ∧
      tk0.type ≠ .newline ∧ Ev fun m => compound L (parser L m) tk0 = some (some c, tk) := by
  obtain ⟨s, e1, e2, e3⟩ := hc true 0 []
  refine ⟨s, ?_, fun b r tk hr he htk => ?_⟩
  · rw [commandToWcs, if_pos rfl, e1, e2.trim, spaceOrNewline_eq]
    rfl
  · obtain ⟨tk0, h3, h4⟩ := e3 b r tk hr he htk
    have h5 : Ev fun m => compound L (parser L m) tk0 = some (some c, tk) := h4.mono fun m e => command_compound e h1 h2
    obtain ⟨m, hm⟩ := h5
    exact ⟨tk0, h3, (compound_type (hm m (Nat.le_refl m))).1, ⟨m, hm⟩⟩

theorem tail_reads (hL : LocaleOk L) {c : Command} {s : List Char}
    (h : ∀ b r tk, Sep r → EndTok tk → At L (s.reverse ++ b) r tk → ∃ tk0, At L b (s ++ r) tk0 ∧
      tk0.type ≠ .newline ∧ Ev fun m => compound L (parser L m) tk0 = some (some c, tk))
    (b r : List Char) (tk : Token) (hr : Sep r) (he : EndTok tk) (htk : At L (s.reverse ++ '\n' :: b) r tk) :
    ∃ tk0, At L b ('\n' :: (s ++ r)) tk0 ∧ ∀ name, Ev fun m => functionBody L (parser L m) name tk0 = some (.funcdef [] name c, tk) := by
  obtain ⟨tk0, h5, hnl, h6⟩ := h ('\n' :: b) r tk hr he htk
  obtain ⟨tk1, h7, h8⟩ := ((NLs.of_at h5 hnl).gap hL true).newlines
  refine ⟨tk1, h7, fun name => ?_⟩
  have h9 : Ev fun m => (parser L m).compound tk0 = some (some c, tk) := Ev.succ h6
  refine h8.mono2 h9 fun m e1 e2 => ?_
  simp only [functionBody, e1, e2, Option.bind_eq_bind, Option.bind_some]

/-- `name()` and the body. -/
theorem name_reads (hL : LocaleOk L) {n : List Char} {c : Command} (hs : isNameBy (isNameChar L) n = true) (hk : n ∉ keywords)
    (hc : CmdRT L c) (h1 : ∀ rs as ws, c ≠ .simple rs as ws) (h2 : ¬NamedFunction L c) :
    ∃ s, n ++ "()\n".toList ++ commandToWcs L c true = s ++ ['\n'] ∧ Reads L s (.funcdef [] [.str n] c) := by
  obtain ⟨s2, e1, e2⟩ := body_reads hc h1 h2
  refine ⟨n ++ "()\n".toList ++ s2, by simp [e1], fun b r tk hr he htk => ?_⟩
  obtain ⟨d, t, hdt, hdig, hchars⟩ := isNameBy_chars hs
  have hne : n ≠ [] := by rw [hdt]; simp
  have hname : isNameWord L [.str n] = true := by simpa [isNameWord, singleString] using hs
  have hkw : ¬Keyword [.str n] := by
    rintro ⟨k, hk1, hk2⟩
    cases hk2
    exact hk hk1
  obtain ⟨tk4, ha4, hev⟩ := tail_reads hL e2 (')' :: '(' :: (n.reverse ++ b)) r tk hr he (htk.cast (by simp) rfl)
  have ha3 := At.rparen hL ('(' :: (n.reverse ++ b)) ('\n' :: (s2 ++ r))
  have ha2 := At.lparen hL (n.reverse ++ b) (')' :: '\n' :: (s2 ++ r))
  have hdol : ¬EndsWithDollar [.str n] := by
    rintro ⟨w', hw'⟩
    have := congrArg List.getLast? hw'
    simp at this
    have := hchars '$' (by rw [this]; simp)
    rw [isNameChar_alnum hL (by decide)] at this
    cases this
  have ha1 := At.name hL hs b (Follow.lparen hdol (')' :: '\n' :: (s2 ++ r))) (by simp)
  refine ⟨_, ha1.cast rfl (by simp), ?_⟩
  have hev' := ((ha4.and (ha3.and ha2)).and (hev [.str n]))
  obtain ⟨m0, hm0⟩ := hev'
  refine ⟨m0 + 2, fun m hm => ?_⟩
  obtain ⟨m, rfl⟩ : ∃ k, m = k + 2 := ⟨m - 2, by omega⟩
  obtain ⟨⟨e4, e3, e2⟩, e5⟩ := hm0 (m + 2) (by omega)
  have ht : (wordToken [.str n] n b ('(' :: ')' :: '\n' :: (s2 ++ r))).type = .word := by
    rw [reservedWordOf_keyword] at hkw
    exact Classical.not_not.1 hkw
  have hc0 : compound L (parser L (m + 2)) (wordToken [.str n] n b ('(' :: ')' :: '\n' :: (s2 ++ r))) =
      some (none, wordToken [.str n] n b ('(' :: ')' :: '\n' :: (s2 ++ r))) := by
    simp [compound, compoundHead, ht]
  have hsplit : splitAssign L [.str n] = none := by
    rw [hdt] at hs ⊢
    simp only [splitAssign, skipName, hdig]
    simp only [isNameBy, skipName, hdig] at hs
    simp at hs
    simp only [Bool.false_eq_true, if_false]
    have : List.dropWhile (isNameChar L) (d :: t) = [] := by simpa using hs
    rw [this]
    split
    · rename_i heq
      have := congrArg Prod.snd heq
      cases this
    · rfl
  have hsim : simpleLoop L (parser L (m + 2)) (m + 2) true (wordToken [.str n] n b ('(' :: ')' :: '\n' :: (s2 ++ r))) =
      some (⟨[], [], [[.str n]]⟩, opToken .lparen ['('] (n.reverse ++ b) (')' :: '\n' :: (s2 ++ r))) := by
    refine simple_word (S := ⟨[], [], []⟩) (by rw [ht]; rfl) (by simp [wordToken]) (fun _ => hsplit) e2 ?_
    rw [simpleLoop, tryRedirect_none (by rfl)]
    simp [opToken]
  unfold command
  rw [if_neg (by rw [ht]; decide), hc0]
  simp only [parser_fuel, hsim, Option.bind_eq_bind, Option.bind_some]
  rw [if_neg (by simp)]
  simp only [tryFunction]
  rw [if_pos (by rfl), if_pos hname]
  have e3' : next L (parser L (m + 2)) (opToken .lparen ['('] (n.reverse ++ b) (')' :: '\n' :: (s2 ++ r))) =
    some (opToken .rparen [')'] ('(' :: (n.reverse ++ b)) ('\n' :: (s2 ++ r))) := e3
  have e4' := expect_next (L := L) (R := parser L (m + 2)) (ty := .rparen) (tk := opToken .rparen [')'] ('(' :: (n.reverse ++ b)) ('\n' :: (s2 ++ r))) rfl e4
  rw [e3', Option.bind_eq_bind, Option.bind_some, e4']
  exact e5

/-- `function name()` and the body. -/
theorem function_reads (hL : LocaleOk L) {q v : List Char} {c : Command} (hw : Literal L q v) (hd : q ≠ ['$'])
    (hc : CmdRT L c) (h1 : ∀ rs as ws, c ≠ .simple rs as ws) (h2 : ¬NamedFunction L c) :
    ∃ s, "function ".toList ++ q ++ "()\n".toList ++ commandToWcs L c true = s ++ ['\n'] ∧ Reads L s (.funcdef [] [.str q] c) := by
  obtain ⟨s2, e1, e2⟩ := body_reads hc h1 h2
  refine ⟨"function ".toList ++ q ++ "()\n".toList ++ s2, by simp [e1], fun b r tk hr he htk => ?_⟩
  have hi := hw.item hL.ok
  obtain ⟨d, s, g1, g2, g3, g4, g5⟩ := hi.rt.at true 0 []
  have hq : q = d :: s := by simpa [printWord, printUnit] using g1
  have hdol : ¬EndsWithDollar [.str q] := by
    rintro ⟨w', hw'⟩
    have := congrArg List.getLast? hw'
    simp at this
    exact hd this
  generalize hB : ' ' :: ("function".toList.reverse ++ b) = B
  obtain ⟨tk4, ha4, hev⟩ := tail_reads hL e2 (')' :: '(' :: (q.reverse ++ B)) r tk hr he (htk.cast (by simp [← hB]) rfl)
  have ha3 := At.rparen hL ('(' :: (q.reverse ++ B)) ('\n' :: (s2 ++ r))
  have ha2 := At.lparen hL (q.reverse ++ B) (')' :: '\n' :: (s2 ++ r))
  have ha1 := (g5 B ('(' :: ')' :: '\n' :: (s2 ++ r)) (Follow.lparen hdol _)).1 (by simp)
  rw [← hq] at ha1
  subst hB
  have ha0 := At.keyword hL "function".toList (by decide) b (Sep.space (q ++ '(' :: ')' :: '\n' :: (s2 ++ r)))
  refine ⟨_, ha0.cast rfl (by simp), ?_⟩
  have hcomp : Ev fun m => compound L (parser L m) (wordToken [.str "function".toList] "function".toList b (' ' :: (q ++ '(' :: ')' :: '\n' :: (s2 ++ r)))) =
      some (some (.funcdef [] [.str q] c), tk) := by
    refine Ev.succ ?_
    have hev' := ((ha4.and (ha3.and (ha2.and (ha1.space hL)))).and (hev [.str q]))
    obtain ⟨m0, hm0⟩ := hev'
    refine ⟨m0, fun m hm => ?_⟩
    obtain ⟨⟨e4, e3, e2, e1⟩, e5⟩ := hm0 (m + 1) (by omega)
    refine compound_noredir ?_ he.redir rfl
    exact function_read (tk := wordToken [.str "function".toList] "function".toList b (' ' :: (q ++ '(' :: ')' :: '\n' :: (s2 ++ r))))
      (tk1 := wordToken [.str q] q (' ' :: ("function".toList.reverse ++ b)) ('(' :: ')' :: '\n' :: (s2 ++ r)))
      rfl e1 hi.ne e2 rfl e3 rfl e4 e5
  refine hcomp.mono fun m e => ?_
  rw [command, if_neg (by rw [(compound_type e).2]; decide), e]

end Yash.Function
