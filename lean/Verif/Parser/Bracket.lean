import Verif.Parser.Lists
/-!
# The double bracket command is read back
-/
set_option autoImplicit false

namespace Yash.Parser

open Syntax Spec
open Expand (Locale)

variable {L : Locale}

/-- An operand of a primary. -/
structure Operand (L : Locale) (w : Word) : Prop extends ItemWord L w where
  notEnd : isDoubleRbracket w = false

/-- The first operand of a primary. -/
structure Operand1 (L : Locale) (w : Word) : Prop extends Operand L w where
  unary : unaryOf w = none
  bang : reservedWordOf w ≠ .bang

/-- A regular expression is read back. -/
def RegexWord (L : Locale) (w : Word) : Prop :=
  ∀ ml i buf, ∃ s, printWord L ml i w buf = buf ++ s ∧
    ∀ b r tk, At L (s.reverse ++ b) (' ' :: r) tk → ∃ tk0, At L b (s ++ ' ' :: r) tk0 ∧
      Ev fun m => regexOperand L (parser L m) tk0 = some (w, tk)

/-- The operator of a binary primary. -/
structure BinOp (L : Locale) (op : List Char) : Prop where
  binary : TestBuiltin.isBinaryPrimary op = true
  token : op = ['<'] ∨ op = ['>'] ∨ ItemWord L [.str op]

/-- The words in the expression are read back. -/
def DbRT (L : Locale) : DbExp → Prop
  | .or l r => ¬IsOr l ∧ DbRT L l ∧ DbRT L r
  | .and l r => ¬IsAnd l ∧ DbRT L l ∧ DbRT L r
  | .not e => DbRT L e
  | .unary op w => TestBuiltin.isUnaryPrimary op = true ∧ ItemWord L [.str op] ∧ reservedWordOf [.str op] ≠ .bang ∧ Operand L w
  | .binary op l r => BinOp L op ∧ Operand1 L l ∧ (op = "=~".toList → RegexWord L r) ∧ (op ≠ "=~".toList → Operand L r)
  | .string w => Operand1 L w

theorem ItemWord.read {w : Word} (h : ItemWord L w) (hL : LocaleOk L) (ml : Bool) (i : Nat) (buf : List Char) :
    ∃ s, printWord L ml i w buf = buf ++ s ∧ ∀ b r, At L b (s ++ ' ' :: r) (wordToken w s b (' ' :: r)) := by
  obtain ⟨c, s, h1, _, _, _, h5⟩ := h.rt.at ml i buf
  refine ⟨c :: s, h1, fun b r => ?_⟩
  have hf := (Sep.space r).follow hL w
  exact (h5 b (' ' :: r) hf.1).1 ⟨hf.2.1, hf.2.2.1⟩

theorem Operand.read {w : Word} (h : Operand L w) (hL : LocaleOk L) (ml : Bool) (i : Nat) (buf : List Char) :
    ∃ s, printWord L ml i w buf = buf ++ s ∧ ∀ b r tk, At L (s.reverse ++ b) (' ' :: r) tk →
      At L b (s ++ ' ' :: r) (wordToken w s b (' ' :: r)) ∧
      Ev fun m => operand L (parser L m) (wordToken w s b (' ' :: r)) = some (w, tk) := by
  obtain ⟨s, h1, h2⟩ := h.toItemWord.read hL ml i buf
  refine ⟨s, h1, fun b r tk htk => ⟨h2 b r, htk.mono fun m e => ?_⟩⟩
  have e' : next L (parser L m) (wordToken w s b (' ' :: r)) = some tk := e
  simp only [operand]
  rw [if_neg, e']
  · rfl
  · simp [wordToken, h.notEnd, h.ne]

/-! ## Regular expressions -/

theorem regex_rt (hL : LocaleOk L) {w1 w2 : Word} {r0 : List Char} (h1 : ItemWord L w1) (hf : Follow (isTokenDelimiter L) w1 r0)
    (hr : RegexRT L 0 [] (lineCont r0).head? w2) (hlt : r0.head? = some '<' ∨ r0.head? = some '>' → w2 = [])
    (hne : isDoubleRbracket (w1 ++ w2) = false) : RegexWord L (w1 ++ w2) := by
  intro ml i buf
  obtain ⟨c, s1, g1, _, _, _, g5⟩ := h1.rt.at ml i buf
  obtain ⟨s2, k1, k2, k3, k4, _, k5⟩ := hr ml i (buf ++ c :: s1)
  refine ⟨c :: s1 ++ s2, ?_, fun b r tk htk => ?_⟩
  · rw [printWord_append, g1, k1]
    simp
  · have hf' : Follow (isTokenDelimiter L) w1 (s2 ++ ' ' :: r) ∧ (s2 ++ ' ' :: r).head? ≠ some '<' ∧ (s2 ++ ' ' :: r).head? ≠ some '>' := by
      cases s2 with
      | nil =>
        have := (Sep.space r).follow hL w1
        exact ⟨this.1, this.2.1, this.2.2.1⟩
      | cons d s2 =>
        have hh := k3 (by simp)
        rw [hf.1] at hh
        have hw2 : w2 ≠ [] := by
          rintro rfl
          simp [printWord] at k1
        refine ⟨⟨k4 r, fun e he => ?_⟩, fun he => hw2 (hlt (.inl ?_)), fun he => hw2 (hlt (.inr ?_))⟩
        · simp at he
          subst he
          exact hf.2 d (by rw [← hh]; simp)
        · rw [← hh]; simpa using he
        · rw [← hh]; simpa using he
    refine ⟨_, ((g5 b (s2 ++ ' ' :: r) hf'.1).1 hf'.2).cast rfl (by simp), ?_⟩
    obtain ⟨m0, hm0⟩ := (k5 ((c :: s1).reverse ++ b) r).and htk
    refine ⟨m0 + s2.length + 1, fun m hm => ?_⟩
    obtain ⟨e1, e2⟩ := hm0 m (by omega)
    have e1' := e1 m (by omega)
    unfold regexOperand
    rw [if_neg (by simp [wordToken, h1.ne])]
    simp only [parser_fuel]
    rw [show (wordToken w1 (c :: s1) b (s2 ++ ' ' :: r)).src = ⟨(c :: s1).reverse ++ b, s2 ++ ' ' :: r⟩ from rfl, e1']
    simp only [Option.bind_eq_bind, Option.bind_some, wordToken]
    unfold operand
    rw [if_neg (by simp [hne, h1.ne]), next]
    simp only
    rw [show s2.reverse ++ ((c :: s1).reverse ++ b) = (c :: s1 ++ s2).reverse ++ b by simp, e2]
    rfl

theorem regexOperand_op {R : Rec} {tk tk' : Token} {w : Word} {st : Src} (hw : tk.word = [])
    (ht : tk.type = .lparen ∨ tk.type = .pipe ∨ tk.type = .pipepipe)
    (h1 : regexLoop L R R.fuel 0 [] ⟨tk.src.before.drop tk.text.length, tk.text ++ tk.src.rest⟩ = some (w, st))
    (hne : isDoubleRbracket w = false) (hwne : w ≠ []) (h2 : nextToken L R.special st = some tk') :
    regexOperand L R tk = some (w, tk') := by
  unfold regexOperand
  rw [if_pos (by simp [hw]), if_pos (by rcases ht with ht | ht | ht <;> simp [ht]), h1]
  simp only [Option.bind_eq_bind, Option.bind_some, operand]
  rw [if_neg (by simp [hne, hwne]), next]
  simp only
  rw [h2]
  rfl

theorem regex_rt_op (hL : LocaleOk L) {w : Word} {c : Char} (hc : c = '(' ∨ c = '|') (hr : RegexRT L 0 [] (some c) w) (hwne : w ≠ [])
    (hne : isDoubleRbracket w = false) : RegexWord L w := by
  intro ml i buf
  obtain ⟨s, k1, k2, k3, k4, k6, k5⟩ := hr ml i buf
  have hsne : s ≠ [] := by
    rintro rfl
    have := (k2 rfl).1
    simp [stringUnit] at this
    exact hwne this
  refine ⟨s, by simpa using k1, fun b r tk htk => ?_⟩
  obtain ⟨m0, hm0⟩ := (k5 b r).and htk
  have hfin : ∀ tk0 : Token, tk0.word = [] → (tk0.type = .lparen ∨ tk0.type = .pipe ∨ tk0.type = .pipepipe) →
      tk0.src.before.drop tk0.text.length = b → tk0.text ++ tk0.src.rest = s ++ ' ' :: r →
      Ev fun m => regexOperand L (parser L m) tk0 = some (w, tk) := by
    intro tk0 hw0 ht0 hb0 hr0
    refine ⟨m0 + s.length + 1, fun m hm => ?_⟩
    obtain ⟨e1, e2⟩ := hm0 m (by omega)
    refine regexOperand_op hw0 ht0 (st := ⟨s.reverse ++ b, ' ' :: r⟩) ?_ hne hwne e2
    rw [hb0, hr0, parser_fuel]
    exact e1 m (by omega)
  cases s with
  | nil => exact absurd rfl hsne
  | cons d s =>
    have hd : d = c := by simpa using k3 (by simp)
    subst hd
    rcases hc with rfl | rfl
    · exact ⟨_, At.lparen hL b (s ++ ' ' :: r), hfin _ rfl (.inl rfl) rfl rfl⟩
    · by_cases hp : (s ++ ' ' :: r).head? = some '|'
      · cases s with
        | nil => simp at hp
        | cons e s =>
          simp at hp
          subst hp
          exact ⟨_, At.pipepipe hL b (s ++ ' ' :: r), hfin _ rfl (.inr (.inr rfl)) rfl rfl⟩
      · exact ⟨_, At.pipe hL b (k6 rfl r) hp, hfin _ rfl (.inr (.inl rfl)) rfl rfl⟩

/-! ## Expressions -/

/-- What reads an expression in the context. -/
def readDb (L : Locale) (R : Rec) : DbContext → Nat → Token → Option (DbExp × Token)
  | .or, n, tk => orsLoop L R n tk
  | .and, n, tk => andsLoop L R n tk
  | .not, n, tk => notsLoop L R n tk

/-- A token that ends an expression in the context. -/
def DbStop : DbContext → Token → Prop
  | .or, tk => binaryOf tk = none ∧ tk.type ≠ .pipepipe ∧ tk.type ≠ .ampamp
  | .and, tk => binaryOf tk = none ∧ tk.type ≠ .ampamp
  | .not, tk => binaryOf tk = none

theorem lift_and {tk0 tk : Token} {e : DbExp} (ht : tk.type ≠ .ampamp) (h : Ev2 fun m n => notsLoop L (parser L m) n tk0 = some (e, tk)) :
    Ev2 fun m n => andsLoop L (parser L m) n tk0 = some (e, tk) := by
  refine Ev2.succ (h.diag.two.mono fun m n e1 => ?_)
  show andsLoop L (parser L m) (n + 1) tk0 = _
  rw [andsLoop, parser_fuel, e1]
  simp [ht]

theorem lift_or {tk0 tk : Token} {e : DbExp} (ht : tk.type ≠ .pipepipe) (h : Ev2 fun m n => andsLoop L (parser L m) n tk0 = some (e, tk)) :
    Ev2 fun m n => orsLoop L (parser L m) n tk0 = some (e, tk) := by
  refine Ev2.succ (h.diag.two.mono fun m n e1 => ?_)
  show orsLoop L (parser L m) (n + 1) tk0 = _
  rw [orsLoop, parser_fuel, e1]
  simp [ht]

theorem lift_db {tk0 tk : Token} {e : DbExp} (h : Ev2 fun m n => notsLoop L (parser L m) n tk0 = some (e, tk)) (c : DbContext)
    (hs : DbStop c tk) : Ev2 fun m n => readDb L (parser L m) c n tk0 = some (e, tk) := by
  cases c with
  | or => exact lift_or hs.2.1 (lift_and hs.2.2 h)
  | and => exact lift_and hs.2 h
  | not => exact h

/-- An expression printed in a context is read back. -/
def DbReads (L : Locale) (e : DbExp) (c : DbContext) : Prop :=
  ∀ ml i buf, ∃ s, printDb L ml i c e buf = buf ++ s ++ [' '] ∧
    ∀ b r tk, DbStop c tk → At L (s.reverse ++ b) (' ' :: r) tk → ∃ tk0, At L b (s ++ ' ' :: r) tk0 ∧
      Ev2 fun m n => readDb L (parser L m) c n tk0 = some (e, tk)

theorem primary_paren {R : Rec} {tk tk1 tk2 tk3 : Token} {e : DbExp} (ht : tk.type = .lparen)
    (h1 : nextToken L R.special tk.src = some tk1) (h2 : R.ors tk1 = some (e, tk2)) (ht2 : tk2.type = .rparen)
    (h3 : nextToken L R.special tk2.src = some tk3) : primary L R tk = some (e, tk3) := by
  unfold primary
  rw [if_pos (by simp [ht]), next, h1]
  simp only [Option.bind_eq_bind, Option.bind_some, h2]
  rw [expect_next ht2 h3]
  rfl

/-- Parentheses. -/
theorem db_paren (hL : LocaleOk L) {e : DbExp} {s : List Char}
    (h : ∀ b r tk, DbStop .or tk → At L (s.reverse ++ b) (' ' :: r) tk → ∃ tk0, At L b (s ++ ' ' :: r) tk0 ∧
      Ev2 fun m n => readDb L (parser L m) .or n tk0 = some (e, tk)) (b r : List Char) (tk : Token)
    (htk : At L (("( ".toList ++ s ++ " )".toList).reverse ++ b) (' ' :: r) tk) :
    ∃ tk0, At L b ("( ".toList ++ s ++ " )".toList ++ ' ' :: r) tk0 ∧ Ev2 fun m n => notsLoop L (parser L m) n tk0 = some (e, tk) := by
  have hrp := (At.rparen hL (' ' :: (s.reverse ++ ' ' :: '(' :: b)) (' ' :: r)).space hL
  obtain ⟨tk1, ha1, hev1⟩ := h (' ' :: '(' :: b) (')' :: ' ' :: r) _ ⟨rfl, by simp [opToken], by simp [opToken]⟩ hrp
  have hlp := At.lparen hL b (' ' :: (s ++ ' ' :: ')' :: ' ' :: r))
  refine ⟨_, hlp.cast rfl (by simp), ?_⟩
  have htk' : At L (')' :: ' ' :: (s.reverse ++ ' ' :: '(' :: b)) (' ' :: r) tk := htk.cast (by simp) rfl
  obtain ⟨m0, hm0⟩ := ((ha1.space hL).and htk').and hev1.diag
  refine ⟨m0 + 1, fun m n hm hn => ?_⟩
  obtain ⟨m, rfl⟩ : ∃ k, m = k + 1 := ⟨m - 1, by omega⟩
  obtain ⟨n, rfl⟩ : ∃ k, n = k + 1 := ⟨n - 1, by omega⟩
  obtain ⟨⟨e1, e2⟩, -⟩ := hm0 (m + 1) (by omega)
  obtain ⟨-, e3⟩ := hm0 m (by omega)
  show notsLoop L (parser L (m + 1)) (n + 1) _ = _
  rw [notsLoop, if_neg (by simp [opToken])]
  refine primary_paren rfl e1 (tk2 := opToken .rparen [')'] (' ' :: (s.reverse ++ ' ' :: '(' :: b)) (' ' :: r)) ?_ rfl e2
  show orsLoop L (parser L m) (parser L m).fuel tk1 = _
  rw [parser_fuel]
  exact e3

theorem DbReads.paren (hL : LocaleOk L) {e : DbExp} {c : DbContext} (h : DbReads L e .or)
    (hp : ∀ ml i buf, printDb L ml i c e buf = printDb L ml i .or e (buf ++ "( ".toList) ++ ") ".toList) : DbReads L e c := by
  intro ml i buf
  obtain ⟨s, h1, h2⟩ := h ml i (buf ++ "( ".toList)
  refine ⟨"( ".toList ++ s ++ " )".toList, ?_, fun b r tk hs htk => ?_⟩
  · rw [hp, h1]
    simp
  · obtain ⟨tk0, h3, h4⟩ := db_paren hL h2 b r tk htk
    exact ⟨tk0, h3, lift_db h4 c hs⟩

/-- An expression that is not printed in parentheses in any context. -/
theorem DbReads.of_not {e : DbExp} (h : DbReads L e .not) (c : DbContext)
    (hp : ∀ ml i buf, printDb L ml i c e buf = printDb L ml i .not e buf) : DbReads L e c := by
  intro ml i buf
  obtain ⟨s, h1, h2⟩ := h ml i buf
  refine ⟨s, by rw [hp, h1], fun b r tk hs htk => ?_⟩
  have hs' : DbStop .not tk := by cases c <;> first | exact hs.1 | exact hs
  obtain ⟨tk0, h3, h4⟩ := h2 b r tk hs' htk
  exact ⟨tk0, h3, lift_db h4 c hs⟩

theorem DbReads.lift {e : DbExp} (h : DbReads L e .and) 
    (hp : ∀ ml i buf, printDb L ml i .or e buf = printDb L ml i .and e buf) : DbReads L e .or := by
  intro ml i buf
  obtain ⟨s, h1, h2⟩ := h ml i buf
  refine ⟨s, by rw [hp, h1], fun b r tk hs htk => ?_⟩
  obtain ⟨tk0, h3, h4⟩ := h2 b r tk ⟨hs.1, hs.2.2⟩ htk
  exact ⟨tk0, h3, lift_or hs.2.1 h4⟩

theorem db_or (hL : LocaleOk L) {l r : DbExp} (hl : DbReads L l .and) (hr : DbReads L r .or)
    (hp : ∀ ml i buf, printDb L ml i .or l buf = printDb L ml i .and l buf) : DbReads L (.or l r) .or := by
  intro ml i buf
  obtain ⟨s1, h1, h2⟩ := hl ml i buf
  obtain ⟨s2, h3, h4⟩ := hr ml i (buf ++ s1 ++ [' '] ++ "|| ".toList)
  refine ⟨s1 ++ " || ".toList ++ s2, ?_, fun b r tk hs htk => ?_⟩
  · show printDb L ml i .or _ (printDb L ml i .or l buf ++ "|| ".toList) = _
    rw [hp, h1, h3]
    simp
  · obtain ⟨tk2, ha2, hev2⟩ := h4 (' ' :: '|' :: '|' :: ' ' :: (s1.reverse ++ b)) r tk hs (htk.cast (by simp) rfl)
    have hor := (At.pipepipe hL (' ' :: (s1.reverse ++ b)) (' ' :: (s2 ++ ' ' :: r))).space hL
    obtain ⟨tk1, ha1, hev1⟩ := h2 b ('|' :: '|' :: ' ' :: (s2 ++ ' ' :: r)) _ ⟨rfl, by simp [opToken]⟩ hor
    refine ⟨tk1, ha1.cast rfl (by simp), ?_⟩
    refine Ev2.succ (((hev1.diag.and (ha2.space hL)).two.and hev2).mono fun m n ⟨⟨e1, e2⟩, e3⟩ => ?_)
    show orsLoop L (parser L m) (n + 1) tk1 = _
    have e1' : andsLoop L (parser L m) m tk1 = _ := e1
    have e2' : next L (parser L m) (opToken .pipepipe "||".toList (' ' :: (s1.reverse ++ b)) (' ' :: (s2 ++ ' ' :: r))) = some tk2 := e2
    have e3' : orsLoop L (parser L m) n tk2 = _ := e3
    rw [orsLoop, parser_fuel, e1']
    simp only [Option.bind_eq_bind, Option.bind_some]
    rw [if_pos (by rfl), e2']
    simp only [Option.bind_some]
    rw [e3']
    rfl

theorem db_and (hL : LocaleOk L) {l r : DbExp} (hl : DbReads L l .not) (hr : DbReads L r .and)
    (hp : ∀ ml i buf, printDb L ml i .and l buf = printDb L ml i .not l buf) : DbReads L (.and l r) .and := by
  intro ml i buf
  obtain ⟨s1, h1, h2⟩ := hl ml i buf
  obtain ⟨s2, h3, h4⟩ := hr ml i (buf ++ s1 ++ [' '] ++ "&& ".toList)
  refine ⟨s1 ++ " && ".toList ++ s2, ?_, fun b r tk hs htk => ?_⟩
  · show printDb L ml i .and _ (printDb L ml i .and l buf ++ "&& ".toList) = _
    rw [hp, h1, h3]
    simp
  · obtain ⟨tk2, ha2, hev2⟩ := h4 (' ' :: '&' :: '&' :: ' ' :: (s1.reverse ++ b)) r tk hs (htk.cast (by simp) rfl)
    have hor := (At.ampamp hL (' ' :: (s1.reverse ++ b)) (' ' :: (s2 ++ ' ' :: r))).space hL
    obtain ⟨tk1, ha1, hev1⟩ := h2 b ('&' :: '&' :: ' ' :: (s2 ++ ' ' :: r)) _ (show binaryOf (opToken .ampamp "&&".toList (' ' :: (s1.reverse ++ b)) (' ' :: (s2 ++ ' ' :: r))) = none from rfl) hor
    refine ⟨tk1, ha1.cast rfl (by simp), ?_⟩
    refine Ev2.succ (((hev1.diag.and (ha2.space hL)).two.and hev2).mono fun m n ⟨⟨e1, e2⟩, e3⟩ => ?_)
    show andsLoop L (parser L m) (n + 1) tk1 = _
    have e1' : notsLoop L (parser L m) m tk1 = _ := e1
    have e2' : next L (parser L m) (opToken .ampamp "&&".toList (' ' :: (s1.reverse ++ b)) (' ' :: (s2 ++ ' ' :: r))) = some tk2 := e2
    have e3' : andsLoop L (parser L m) n tk2 = _ := e3
    rw [andsLoop, parser_fuel, e1']
    simp only [Option.bind_eq_bind, Option.bind_some]
    rw [if_pos (by rfl), e2']
    simp only [Option.bind_some]
    rw [e3']
    rfl

theorem db_not (hL : LocaleOk L) {e : DbExp} (h : DbReads L e .not) : DbReads L (.not e) .not := by
  intro ml i buf
  obtain ⟨s, h1, h2⟩ := h ml i (buf ++ "! ".toList)
  refine ⟨"! ".toList ++ s, ?_, fun b r tk hs htk => ?_⟩
  · show printDb L ml i .not e (buf ++ "! ".toList) = _
    rw [h1]
    simp
  · obtain ⟨tk1, ha1, hev1⟩ := h2 (' ' :: '!' :: b) r tk hs (htk.cast (by simp) rfl)
    have hb := At.keyword hL "!".toList (by decide) b (Sep.space (s ++ ' ' :: r))
    refine ⟨_, hb.cast rfl (by simp), ?_⟩
    refine Ev2.succ (((ha1.space hL).two.and hev1).mono fun m n ⟨e1, e2⟩ => ?_)
    show notsLoop L (parser L m) (n + 1) _ = _
    have e1' : next L (parser L m) (wordToken [.str "!".toList] "!".toList b (' ' :: (s ++ ' ' :: r))) = some tk1 := e1
    have e2' : notsLoop L (parser L m) n tk1 = _ := e2
    rw [notsLoop, if_pos (by rfl), e1']
    simp only [Option.bind_eq_bind, Option.bind_some]
    rw [e2']
    rfl

/-! ## Primaries -/

theorem wordToken_lparen {w : Word} {s b r : List Char} : (wordToken w s b r).type ≠ .lparen := by
  intro h
  have := (reservedWordOf_type w).2
  rw [show reservedWordOf w = .lparen from h] at this
  cases this

/-- A primary is read by the function for `!`. -/
theorem nots_primary {tk0 tk : Token} {e : DbExp} (ht : tk0.type ≠ .bang) (h : Ev fun m => primary L (parser L m) tk0 = some (e, tk)) :
    Ev2 fun m n => notsLoop L (parser L m) n tk0 = some (e, tk) := by
  refine Ev2.succ (h.two.mono fun m n e1 => ?_)
  show notsLoop L (parser L m) (n + 1) tk0 = _
  rw [notsLoop, if_neg (by simp [ht]), e1]

theorem db_unary (hL : LocaleOk L) {op : List Char} {w : Word} (hop : TestBuiltin.isUnaryPrimary op = true) (ho : ItemWord L [.str op])
    (hb : reservedWordOf [.str op] ≠ .bang) (hw : Operand L w) : DbReads L (.unary op w) .not := by
  intro ml i buf
  obtain ⟨s0, h0, h1⟩ := ho.read hL ml i []
  have h0' : s0 = op := by simpa [printWord, printUnit] using h0.symm
  subst h0'
  obtain ⟨s, h2, h3⟩ := hw.read hL ml i (buf ++ s0 ++ [' '])
  refine ⟨s0 ++ ' ' :: s, ?_, fun b r tk hs htk => ?_⟩
  · show printWord L ml i w (buf ++ s0 ++ [' ']) ++ [' '] = _
    rw [h2]
    simp
  · obtain ⟨ha, hev⟩ := h3 (' ' :: (s0.reverse ++ b)) r tk (htk.cast (by simp) rfl)
    refine ⟨_, (h1 b (s ++ ' ' :: r)).cast rfl (by simp), nots_primary hb ?_⟩
    refine (ha.space hL).mono2 hev fun m e1 e2 => ?_
    have e1' : next L (parser L m) (wordToken [.str s0] s0 b (' ' :: (s ++ ' ' :: r))) = some _ := e1
    unfold primary
    rw [if_neg (by simpa using wordToken_lparen)]
    rw [show unaryOf (wordToken [.str s0] s0 b (' ' :: (s ++ ' ' :: r))).word = some s0 by simp [wordToken, unaryOf, singleString, hop]]
    simp only
    rw [e1']
    simp only [Option.bind_eq_bind, Option.bind_some, e2]

theorem db_string (hL : LocaleOk L) {w : Word} (hw : Operand1 L w) : DbReads L (.string w) .not := by
  intro ml i buf
  obtain ⟨s, h2, h3⟩ := hw.toOperand.read hL ml i buf
  refine ⟨s, ?_, fun b r tk hs htk => ?_⟩
  · show printWord L ml i w buf ++ [' '] = _
    rw [h2]
  · obtain ⟨ha, hev⟩ := h3 b r tk htk
    refine ⟨_, ha, nots_primary hw.bang ?_⟩
    refine hev.mono fun m e2 => ?_
    have hs' : binaryOf tk = none := hs
    unfold primary
    rw [if_neg (by simpa using wordToken_lparen)]
    rw [show unaryOf (wordToken w s b (' ' :: r)).word = none from hw.unary]
    simp only
    rw [e2]
    simp only [Option.bind_eq_bind, Option.bind_some, hs']

theorem BinOp.at (hL : LocaleOk L) {op : List Char} (h : BinOp L op) (b r : List Char) :
    ∃ tk, At L b (op ++ ' ' :: r) tk ∧ binaryOf tk = some op ∧ tk.src = ⟨op.reverse ++ b, ' ' :: r⟩ := by
  rcases h.token with rfl | rfl | h1
  · exact ⟨_, At.redir hL .input b (r := ' ' :: r) (lineCont_id (by decide)) (by intro c hc; simp at hc; subst hc; decide), rfl, rfl⟩
  · exact ⟨_, At.redir hL .output b (r := ' ' :: r) (lineCont_id (by decide)) (by intro c hc; simp at hc; subst hc; decide), rfl, rfl⟩
  · obtain ⟨s0, h0, h2⟩ := h1.read hL false 0 []
    have h0' : s0 = op := by simpa [printWord, printUnit] using h0.symm
    subst h0'
    refine ⟨_, h2 b r, ?_, rfl⟩
    have ht : reservedWordOf [.str s0] ≠ .less ∧ reservedWordOf [.str s0] ≠ .greater := by
      have := (reservedWordOf_type [.str s0]).2
      constructor <;> intro hh <;> rw [hh] at this <;> cases this
    simp [wordToken, binaryOf, singleString, h.binary, ht]

theorem db_binary (hL : LocaleOk L) {op : List Char} {l w : Word} (hop : BinOp L op) (hl : Operand1 L l)
    (h1 : op = "=~".toList → RegexWord L w) (h2 : op ≠ "=~".toList → Operand L w) : DbReads L (.binary op l w) .not := by
  intro ml i buf
  obtain ⟨s1, g1, g2⟩ := hl.toOperand.read hL ml i buf
  have hw : ∃ s, printWord L ml i w (buf ++ s1 ++ ' ' :: op ++ [' ']) = buf ++ s1 ++ ' ' :: op ++ [' '] ++ s ∧
      ∀ b r tk, At L (s.reverse ++ b) (' ' :: r) tk → ∃ tk0, At L b (s ++ ' ' :: r) tk0 ∧
        Ev fun m => (if op == "=~".toList then do
            let (w, tk3) ← regexOperand L (parser L m) tk0
            some (DbExp.binary op l w, tk3)
          else do
            let (w, tk3) ← operand L (parser L m) tk0
            some (.binary op l w, tk3)) = some (.binary op l w, tk) := by
    by_cases hr : op = "=~".toList
    · obtain ⟨s, k1, k2⟩ := h1 hr ml i (buf ++ s1 ++ ' ' :: op ++ [' '])
      refine ⟨s, k1, fun b r tk htk => ?_⟩
      obtain ⟨tk0, k3, k4⟩ := k2 b r tk htk
      refine ⟨tk0, k3, k4.mono fun m e => ?_⟩
      rw [if_pos (by simp [hr]), e]
      rfl
    · obtain ⟨s, k1, k2⟩ := (h2 hr).read hL ml i (buf ++ s1 ++ ' ' :: op ++ [' '])
      refine ⟨s, k1, fun b r tk htk => ?_⟩
      obtain ⟨k3, k4⟩ := k2 b r tk htk
      refine ⟨_, k3, k4.mono fun m e => ?_⟩
      rw [if_neg (by simpa using hr), e]
      rfl
  obtain ⟨s2, g3, g4⟩ := hw
  refine ⟨s1 ++ ' ' :: op ++ ' ' :: s2, ?_, fun b r tk hs htk => ?_⟩
  · show printWord L ml i w (printWord L ml i l buf ++ ' ' :: op ++ [' ']) ++ [' '] = _
    rw [g1, g3]
    simp
  · obtain ⟨tk2, ha2, hev2⟩ := g4 (' ' :: (op.reverse ++ ' ' :: (s1.reverse ++ b))) r tk (htk.cast (by simp) rfl)
    obtain ⟨tk1, ha1, hb1, hsrc1⟩ := hop.at hL (' ' :: (s1.reverse ++ b)) (s2 ++ ' ' :: r)
    obtain ⟨ha0, hev0⟩ := g2 b (op ++ ' ' :: (s2 ++ ' ' :: r)) tk1 (ha1.space hL)
    refine ⟨_, ha0.cast rfl (by simp), nots_primary hl.bang ?_⟩
    refine (ha2.space hL).mono3 hev0 hev2 fun m e1 e2 e3 => ?_
    have e1' : next L (parser L m) tk1 = some tk2 := by rw [next, hsrc1]; exact e1
    unfold primary
    rw [if_neg (by simpa using wordToken_lparen)]
    rw [show unaryOf (wordToken l s1 b (' ' :: (op ++ ' ' :: (s2 ++ ' ' :: r)))).word = none from hl.unary]
    simp only
    rw [e2]
    simp only [Option.bind_eq_bind, Option.bind_some, hb1, e1']
    exact e3

theorem db_read (hL : LocaleOk L) : ∀ e : DbExp, DbRT L e → ∀ c, DbReads L e c
  | .or l r, h, c => by
    obtain ⟨h1, h2, h3⟩ := h
    have hor : DbReads L (.or l r) .or := db_or hL (db_read hL l h2 .and) (db_read hL r h3 .or) (fun ml i buf => by
      cases l <;> first | rfl | exact absurd trivial h1)
    cases c with
    | or => exact hor
    | and => exact hor.paren hL fun _ _ _ => rfl
    | not => exact hor.paren hL fun _ _ _ => rfl
  | .and l r, h, c => by
    obtain ⟨h1, h2, h3⟩ := h
    have hand : DbReads L (.and l r) .and := db_and hL (db_read hL l h2 .not) (db_read hL r h3 .and) (fun ml i buf => by
      cases l <;> first | rfl | exact absurd trivial h1)
    have hor : DbReads L (.and l r) .or := hand.lift fun _ _ _ => rfl
    cases c with
    | or => exact hor
    | and => exact hand
    | not => exact hor.paren hL fun _ _ _ => rfl
  | .not e, h, c => (db_not hL (db_read hL e h .not)).of_not c fun _ _ _ => rfl
  | .unary op w, h, c => (db_unary hL h.1 h.2.1 h.2.2.1 h.2.2.2).of_not c fun _ _ _ => rfl
  | .binary op l r, h, c => (db_binary hL h.1 h.2.1 h.2.2.1 h.2.2.2).of_not c fun _ _ _ => rfl
  | .string w, h, c => (db_string hL h).of_not c fun _ _ _ => rfl

def printBracket (L : Locale) (e : DbExp) (ml : Bool) (i : Nat) (b : List Char) : List Char :=
  printDb L ml i .or e (b ++ "[[ ".toList) ++ "]]".toList

theorem bracket_read {R : Rec} {tk tk1 tk2 tk3 : Token} {e : DbExp} (h0 : tk.type = .doubleLbracket)
    (h1 : nextToken L R.special tk.src = some tk1) (h2 : orsLoop L R R.fuel tk1 = some (e, tk2))
    (h3 : isDoubleRbracket tk2.word = true) (h4 : nextToken L R.special tk2.src = some tk3) :
    compoundHead L R tk = some (some (.bracket [] e, tk3)) := by
  simp only [compoundHead, h0, bracket, next, h1, Option.bind_eq_bind, Option.bind_some, h2]
  rw [if_pos h3, h4]
  rfl

theorem head_bracket (hL : LocaleOk L) {e : DbExp} (he : DbRT L e) : HeadRT L (printBracket L e) (.bracket [] e) := by
  intro ml i buf
  obtain ⟨s, h1, h2⟩ := db_read hL e he .or ml i (buf ++ "[[ ".toList)
  refine ⟨"[[ ".toList ++ s ++ " ]]".toList, ?_, ?_, fun b r tk hr htk => ?_⟩
  · rw [printBracket, h1]
    simp
  · show Txt ('[' :: ('[' :: ' ' :: s ++ [' ', ']', ']']))
    rw [show '[' :: ' ' :: s ++ [' ', ']', ']'] = ('[' :: ' ' :: s ++ [' ', ']']) ++ [']'] by simp]
    exact Txt.of_last (by decide) (by decide)
  · have hend := At.keyword hL "]]".toList (by decide) (' ' :: (s.reverse ++ ' ' :: '[' :: '[' :: b)) hr
    obtain ⟨tk1, ha1, hev1⟩ := h2 (' ' :: '[' :: '[' :: b) (']' :: ']' :: r) _ ⟨rfl, by show reservedWord "]]".toList ≠ _; decide, by show reservedWord "]]".toList ≠ _; decide⟩ (hend.space hL)
    have hopen := At.keyword hL "[[".toList (by decide) b (Sep.space (s ++ ' ' :: ']' :: ']' :: r))
    refine ⟨_, hopen.cast rfl (by simp), ?_⟩
    refine (ha1.space hL).mono3 hev1.diag htk fun m e1 e2 e3 => ?_
    refine bracket_read (tk2 := wordToken [.str "]]".toList] "]]".toList (' ' :: (s.reverse ++ ' ' :: '[' :: '[' :: b)) r) ?_ e1 ?_ rfl ?_
    · show reservedWord "[[".toList = _; decide
    · rw [parser_fuel]; exact e2
    · simp only [wordToken]
      simpa using e3

/-! ## Compound commands with redirections -/

theorem comp_group (hL : LocaleOk L) {l : List AndOr} {rs : List Redir} (hl : ListRT L l) (hrs : ∀ x ∈ rs, RedirRT L x) :
    CompRT L (.group rs l) :=
  (head_group hL hl).comp hL hrs fun ml i buf => by
    show printRedirs L ml i rs (printIndent ml i (printAndOrs L ml (i + 1) false l (spaceOrNewline ml (buf ++ ['{']))) ++ "} ".toList) = _
    simp [printGroup]

theorem comp_subshell (hL : LocaleOk L) {l : List AndOr} {rs : List Redir} (hl : ListRT L l) (hrs : ∀ x ∈ rs, RedirRT L x) :
    CompRT L (.subshell rs l) :=
  (head_subshell hL hl).comp hL hrs fun ml i buf => by
    show printRedirs L ml i rs (trimEnd (printAndOrs L ml (i + 1) true l (buf ++ ['('])) ++ ") ".toList) = _
    simp [printSubshell]

theorem comp_while (hL : LocaleOk L) (t : Bool) {c l : List AndOr} {rs : List Redir} (hc : ListRT L c) (hl : ListRT L l) (hrs : ∀ x ∈ rs, RedirRT L x) :
    CompRT L (.whiles rs t c l) :=
  (head_while hL hc hl).comp hL hrs fun ml i buf => by
    show printRedirs L ml i rs (printIndent ml i (printAndOrs L ml (i + 1) false l (spaceOrNewline ml (printIndent ml i (printAndOrs L ml (i + 1) false c (buf ++ (if t then "while ".toList else "until ".toList))) ++ "do".toList))) ++ "done ".toList) = _
    simp [printWhile]

theorem comp_if (hL : LocaleOk L) {c : IfClause} {cs : List IfClause} {rs : List Redir} (hc : ∀ x ∈ c :: cs, ClauseRT L x) (hrs : ∀ x ∈ rs, RedirRT L x) :
    CompRT L (.ifs rs (c :: cs)) :=
  (head_if hL hc).comp hL hrs fun ml i buf => by
    show printRedirs L ml i rs (printIndent ml i (printClauses L ml i true (c :: cs) buf) ++ "fi ".toList) = _
    simp [printIf]

theorem comp_for (hL : LocaleOk L) {name : List Char} (hname : isNameBy (isNameChar L) name = true) {ws : Option (List Word)}
    (hws : ∀ v, ws = some v → ∀ w ∈ v, ItemWord L w) {l : List AndOr} {rs : List Redir} (hl : ListRT L l) (hrs : ∀ x ∈ rs, RedirRT L x) :
    CompRT L (.fors rs name ws l) :=
  (head_for hL hname hws hl).comp hL hrs fun ml i buf => by
    have : printCommand L ml i (.fors rs name ws l) buf = printRedirs L ml i rs (printIndent ml i (printAndOrs L ml (i + 1) false l (spaceOrNewline ml
      (printIndent ml i (printForHead L ws ml i (buf ++ "for ".toList ++ name)) ++ "do".toList))) ++ "done ".toList) := by
      cases ws <;> rfl
    refine this.trans ?_
    simp [printFor]

theorem comp_case (hL : LocaleOk L) {w : Word} (hw : ItemWord L w) {cs : List CaseItem} {rs : List Redir} (hcs : ∀ c ∈ cs, ItemRT L c)
    (hrs : ∀ x ∈ rs, RedirRT L x) : CompRT L (.cases rs w cs) :=
  (head_case hL hw hcs).comp hL hrs fun ml i buf => by
    show printRedirs L ml i rs (printIndent ml i (printItems L ml (i + 1) cs (spaceOrNewline ml (printWord L ml i w (buf ++ "case ".toList) ++ " in".toList))) ++ "esac ".toList) = _
    simp [printCase]

theorem comp_bracket (hL : LocaleOk L) {e : DbExp} {rs : List Redir} (he : DbRT L e) (hrs : ∀ x ∈ rs, RedirRT L x) :
    CompRT L (.bracket rs e) :=
  (head_bracket hL he).comp hL hrs fun ml i buf => by
    show printRedirs L ml i rs (printDb L ml i .or e (buf ++ "[[ ".toList) ++ "]] ".toList) = _
    simp [printBracket]

end Yash.Parser
