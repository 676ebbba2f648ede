import Verif.Parser.Bracket
/-!
# Expansions are read back
-/
set_option autoImplicit false

namespace Yash.Parser

open Syntax Spec
open Expand (Locale)

variable {L : Locale}

/-- Lists that are read are read back. -/
def GoodList (L : Locale) (list : Token → Option (List AndOr × Token)) : Prop :=
  ∀ tk l tk', TokGood L tk → list tk = some (l, tk') → TokGood L tk' ∧ (ListOk L l → ListRT L l)

theorem cmdsub_rt (hL : LocaleOk L) {l : List AndOr} (hl : ListRT L l) : UnitRT L (.cmdsub (.parsed l)) := by
  intro ml i buf
  obtain ⟨s, h1, _, h2, h3, h4⟩ := hl.read ml (i + 1) true (buf ++ "$(".toList)
  -- The text after the parenthesis.
  have key : ∃ s', guardParen (buf.length + 2) (printAndOrs L ml (i + 1) true l (buf ++ "$(".toList) ++ [')']) = buf ++ "$(".toList ++ s' ++ [')'] ∧
      (∀ r, (s' ++ ')' :: r).head? ≠ some '(') ∧ (∀ r, lineCont (s' ++ ')' :: r) = s' ++ ')' :: r) ∧
      ∀ b r tkc, NLs L (s'.reverse ++ b) (')' :: r) tkc → tkc.type = .rparen → tkc.word = [] →
        ∃ tk0, At L b (s' ++ ')' :: r) tk0 ∧ Ev fun m => (parser L m).list tk0 = some (l, tkc) := by
    rw [h1, List.append_assoc, guardParen_eq _ _ _ (by simp)]
    by_cases hp : (s ++ [')']).head? = some '('
    · rw [if_pos hp]
      refine ⟨' ' :: s, by simp, by simp, fun r => lineCont_id (by decide), fun b r tkc hn ht hw => ?_⟩
      obtain ⟨tk0, h5, h6⟩ := h4 (' ' :: b) (')' :: r) tkc (hn.cast (by simp) rfl) (.inl (by rw [ht]; rfl)) (fun _ => ⟨Sep.rparen r, by simp, hw⟩)
      exact ⟨tk0, h5.space hL, h6⟩
    · rw [if_neg hp]
      refine ⟨s, by simp, ?_, fun r => h3 _ (fun _ => Sep.rparen r) (lineCont_id (by decide)), fun b r tkc hn ht hw => ?_⟩
      · intro r
        cases s with
        | nil => simp
        | cons c s => simpa using hp
      · exact h4 b (')' :: r) tkc hn (.inl (by rw [ht]; rfl)) (fun _ => ⟨Sep.rparen r, by simp, hw⟩)
  obtain ⟨s', k1, k2, k3, k4⟩ := key
  refine ⟨'(', s' ++ [')'], ?_, .inr rfl, fun b r indq => ?_⟩
  · rw [printUnit, printEmbed, k1]
    simp
  · obtain ⟨tk0, h5, h6⟩ := k4 ('(' :: '$' :: b) r _ (NLs.of_at (At.rparen hL _ _) (by simp [opToken])) rfl rfl
    refine Ev.succ (h5.mono2 h6 fun m e1 e2 => ?_)
    rw [special_eq, show '$' :: '(' :: (s' ++ [')']) ++ r = '$' :: '(' :: (s' ++ ')' :: r) by simp]
    simp only [special]
    rw [lineCont_id (by decide)]
    simp only
    rw [k3]
    have hc : cmdsub L (parser L m) ⟨'(' :: '$' :: b, s' ++ ')' :: r⟩ = some (.cmdsub (.parsed l), ⟨('$' :: '(' :: (s' ++ [')'])).reverse ++ b, r⟩) := by
      simp only [cmdsub, e1, Option.bind_eq_bind, Option.bind_some, e2]
      rw [if_pos (by rfl)]
      simp [opToken]
    split
    · rename_i heq
      have := k2 r
      rw [heq] at this
      exact absurd rfl this
    · rw [hc]
      rfl

theorem arith_rt {w : Word} {h : Option Char} (hw : ArithRT L 0 [] h w) : UnitRT L (.arith w) := by
  intro ml i buf
  obtain ⟨s, h1, _, h3, h4⟩ := hw ml i (buf ++ "$((".toList)
  refine ⟨'(', '(' :: s ++ [')', ')'], ?_, .inr rfl, fun b r indq => ?_⟩
  · rw [printUnit, h1]
    simp
  · obtain ⟨m0, hm0⟩ := h4 ('(' :: '(' :: '$' :: b) r
    refine ⟨m0 + s.length + 2, fun m hm => ?_⟩
    obtain ⟨m, rfl⟩ : ∃ k, m = k + 1 := ⟨m - 1, by omega⟩
    have e := hm0 m (by omega) m (by omega)
    rw [special_eq, show '$' :: '(' :: ('(' :: s ++ [')', ')']) ++ r = '$' :: '(' :: '(' :: (s ++ ')' :: ')' :: r) by simp]
    simp only [special]
    rw [lineCont_id (by decide)]
    simp only
    rw [lineCont_id (by decide)]
    simp only [parser_fuel]
    rw [e]
    simp

theorem cmdsub_good (hL : LocaleOk L) {R : Rec} (hs : GoodSpecial L R.special) (hl : GoodList L R.list) {st st' : Src} {u : WordUnit}
    (hnt : NT st.rest) (h : cmdsub L R st = some (u, st')) : NT st'.rest ∧ (∀ t, u ≠ .str t) ∧ (UnitOk L u → UnitRT L u) := by
  simp only [cmdsub, Option.bind_eq_bind, Option.bind_eq_some_iff] at h
  obtain ⟨tk, h1, ⟨l, tk'⟩, h2, h⟩ := h
  have hg := token_good hs hnt h1
  obtain ⟨hg', hok⟩ := hl tk l tk' hg h2
  split at h
  · cases h
    refine ⟨hg'.nt, by simp, fun hu => cmdsub_rt hL (hok ?_)⟩
    simpa [UnitOk, EmbedOk] using hu
  · cases h

theorem backquote_nt {bsdq : Bool} {acc b r s : List Char} {st : Src} (hnt : NT r) (h : backquote bsdq acc b r = some (s, st)) : NT st.rest := by
  induction acc, b, r using backquote.induct bsdq with
  | case1 => simp [backquote] at h
  | case2 acc b r ih => rw [backquote] at h; exact ih hnt.tail.tail h
  | case3 acc b r => rw [backquote] at h; cases h; exact hnt.tail
  | case4 => simp [backquote] at h
  | case5 acc b c r h1 h3 ih =>
    rw [backquote] at h
    · rw [if_pos h3] at h; exact ih hnt.tail.tail h
    · simpa using h1
  | case6 acc b c r h1 h3 ih =>
    rw [backquote] at h
    · rw [if_neg h3] at h; exact ih hnt.tail.tail h
    · simpa using h1
  | case7 acc b c r h1 h2 h3 h4 ih =>
    rw [backquote] at h
    · exact ih hnt.tail h
    · simpa using h1
    · simpa using h2
    · simpa using h3
    · simpa using h4

/-- Expansions that are read are read back. -/
theorem special_good (hL : LocaleOk L) {R : Rec} (hs : GoodSpecial L R.special) (hb : GoodBrace L R.brace) (hl : GoodList L R.list) :
    GoodSpecial L (special L R) where
  unit := by
    intro indq b c r u st hnt h
    unfold special at h
    split at h
    · rename_i b1 r1 heq
      cases heq
      split at h
      · rename_i r2 hr2
        simp only [Option.bind_eq_bind, Option.bind_eq_some_iff] at h
        obtain ⟨⟨u', st'⟩, h1, h⟩ := h
        cases h
        have hnt2 : NT ('{' :: r2) := hr2 ▸ hnt.tail.lineCont
        obtain ⟨h2, h3⟩ := brace_good hL hs hb _ _ _ _ hnt2.tail h1
        refine ⟨h2, ?_, fun hu => ⟨rfl, h3 hu⟩⟩
        simp only [brace, Option.bind_eq_bind, Option.bind_eq_some_iff] at h1
        obtain ⟨_, _, _, _, _, _, h1⟩ := h1
        cases h1
        simp
      · rename_i r2 hr2
        have hnt2 : NT ('(' :: r2) := hr2 ▸ hnt.tail.lineCont
        split at h
        · rename_i r3 hr3
          have hnt3 : NT ('(' :: r3) := hr3 ▸ hnt2.tail.lineCont
          split at h
          · cases h
          · rename_i w st1 ha
            cases h
            obtain ⟨h1, -, h3⟩ := arith_loop hs _ _ _ _ _ _ _ hnt3.tail ha
            refine ⟨h1, by simp, fun hu => ⟨rfl, arith_rt (h3 w rfl (by simpa [UnitOk] using hu))⟩⟩
          · rename_i st1 ha
            simp only [Option.bind_eq_bind, Option.bind_eq_some_iff] at h
            obtain ⟨⟨u', st'⟩, h1, h⟩ := h
            cases h
            obtain ⟨h4, h5, -⟩ := arith_loop hs _ _ _ _ _ _ _ hnt3.tail ha
            obtain ⟨h6, h7, h8⟩ := cmdsub_good hL hs hl (by exact h4.append (h5 rfl)) h1
            exact ⟨h6, h7, fun hu => ⟨rfl, h8 hu⟩⟩
        · simp only [Option.bind_eq_bind, Option.bind_eq_some_iff] at h
          obtain ⟨⟨u', st'⟩, h1, h⟩ := h
          cases h
          obtain ⟨h6, h7, h8⟩ := cmdsub_good hL hs hl (by exact hnt2.tail.lineCont) h1
          exact ⟨h6, h7, fun hu => ⟨rfl, h8 hu⟩⟩
      · have h' := Option.some.inj h
        obtain ⟨h1, h2, h3⟩ := rawParam_RT hL hnt.tail.lineCont h'
        exact ⟨h1, h2, fun _ => ⟨rfl, h3⟩⟩
    · rename_i b1 r1 heq
      cases heq
      simp only [Option.bind_eq_bind, Option.bind_eq_some_iff] at h
      obtain ⟨⟨s, st'⟩, h1, h⟩ := h
      cases h
      refine ⟨backquote_nt hnt.tail h1, by simp, fun hu => ?_⟩
      simp [UnitOk, EmbedOk] at hu
    · cases h
  dollar := by
    intro indq b c r st h
    unfold special at h
    split at h
    · rename_i b1 r1 heq
      cases heq
      split at h
      · simp only [Option.bind_eq_bind, Option.bind_eq_some_iff] at h
        obtain ⟨_, _, h⟩ := h
        cases h
      · split at h
        · split at h
          · cases h
          · cases h
          · simp only [Option.bind_eq_bind, Option.bind_eq_some_iff] at h
            obtain ⟨_, _, h⟩ := h
            cases h
        · simp only [Option.bind_eq_bind, Option.bind_eq_some_iff] at h
          obtain ⟨_, _, h⟩ := h
          cases h
      · rename_i hn1 hn2
        have h' := Option.some.inj h
        refine ⟨rfl, ?_⟩
        unfold rawParam at h'
        rw [lineCont_idem] at h'
        split at h'
        · rename_i hr
          cases h'
          rw [hr]
          exact ⟨rfl, by simp⟩
        · rename_i d r2 hr
          split at h'
          · cases h'
          · split at h'
            · cases h'
            · rename_i hx hy
              cases h'
              rw [hr]
              refine ⟨rfl, fun e he => ?_⟩
              simp at he
              subst he
              have hb1 : d ≠ '{' := by rintro rfl; exact hn1 _ hr
              have hb2 : d ≠ '(' := by rintro rfl; exact hn2 _ hr
              simp at hx hy
              simp [startsParam, hx, hy, hb1, hb2]
    · simp only [Option.bind_eq_bind, Option.bind_eq_some_iff] at h
      obtain ⟨_, _, h⟩ := h
      cases h
    · cases h

end Yash.Parser
