import Verif.Parser.AcceptParams
/-!
# Well-formed commands are read
-/
set_option autoImplicit false

namespace Yash.Parser.Grammar

open Syntax Spec Yash.Parser
open Expand (Locale)

variable {L : Locale}

/-! ## Names and assignments -/

theorem isNameBy_of {n : List Char} (h : Name L [.str n]) : isNameBy (isNameChar L) n = true := by
  have := (name_iff (L := L) [.str n]).1 h
  simpa [isNameWord, singleString] using this

theorem splitAssign_none {w : Word} (h : ¬LooksLikeAssignment L w) : splitAssign L w = none := by
  cases hs : splitAssign L w with
  | none => rfl
  | some x =>
    exfalso
    apply h
    unfold splitAssign at hs
    split at hs
    · rename_i s us
      split at hs
      · rename_i c n v hk
        refine ⟨c :: n, v, us, ?_⟩
        cases s with
        | nil => simp [skipName] at hk
        | cons d s =>
          simp only [skipName] at hk
          split at hk
          · simp at hk
          · rename_i hdig
            have hk := Prod.mk.inj hk
            have hall : ∀ e ∈ c :: n, isNameChar L e = true := by
              rw [← hk.1]
              intro e he
              exact List.all_eq_true.1 (List.all_takeWhile (p := isNameChar L) (l := d :: s)) e he
            have hd : d = c := by
              have := hk.1
              rw [List.takeWhile_cons] at this
              split at this
              · simp at this; exact this.1
              · cases this
            subst hd
            refine ⟨⟨d, n, rfl, ?_, fun e he => by simpa [isNameChar] using hall e he⟩, ?_⟩
            · simpa [isDigitChar] using hdig
            · have := List.takeWhile_append_dropWhile (p := isNameChar L) (l := d :: s)
              rw [hk.1, hk.2] at this
              rw [← this]
      · cases hs
    · cases hs

theorem splitAssign_name (hL : LocaleOk L) {n v : List Char} {us : Word} (h : Name L [.str n]) :
    splitAssign L (.str (n ++ '=' :: v) :: us) = some (n, if v.isEmpty then us else .str v :: us) := by
  obtain ⟨c, s, h1, h2, h3⟩ := h
  cases h1
  have hall : ∀ d ∈ c :: s, isNameChar L d = true := fun d hd => by simpa [isNameChar] using h3 d hd
  have heq : isNameChar L '=' = false := isNameChar_alnum hL (by decide)
  have hdig : isDigitChar c = false := by simpa [isDigitChar] using h2
  have ht : ((c :: s) ++ '=' :: v).takeWhile (isNameChar L) = c :: s := by
    rw [List.takeWhile_append_of_pos hall, List.takeWhile_cons_of_neg (by simp [heq])]
    simp
  have hdr : ((c :: s) ++ '=' :: v).dropWhile (isNameChar L) = '=' :: v := by
    rw [List.dropWhile_append_of_pos hall, List.dropWhile_cons_of_neg (by simp [heq])]
  simp only [List.cons_append] at ht hdr
  simp only [splitAssign, List.cons_append, skipName, hdig, Bool.false_eq_true, if_false, ht, hdr]

theorem name_plain (hL : LocaleOk L) {n : List Char} (h : Name L [.str n]) : ∀ c ∈ n ++ ['='], ¬Ends L .token c ∧ c ∉ "\\$`'\"".toList := by
  obtain ⟨c0, s, hn, hall⟩ := name_chars h
  intro c hc
  have hp : Plain L c := by
    simp only [List.mem_append, List.mem_singleton] at hc
    rcases hc with hc | rfl
    · exact (Plain.name hL (hall c hc)).1
    · exact Plain.punct hL (by decide)
  exact ⟨delim_false.1 hp.1, hp.2⟩

theorem assign_word (hL : LocaleOk L) {n : List Char} (h : Name L [.str n]) {ps : List Piece} (hp : PiecesRT L .token false ps) :
    ∃ W, ItemWord L W ∧ splitAssign L W = some (n, join [] ps) := by
  have h1 := hp.chars (n ++ ['=']) (name_plain hL h)
  obtain ⟨c, s, rfl, hall⟩ := name_chars h
  refine ⟨_, h1.item (by simp) ?_, ?_⟩
  · simp only [List.cons_append, List.map_cons, firstChar, List.head?_cons]
    intro he
    cases he
    have := hall '#' (by simp)
    rw [isNameChar_alnum hL (by decide)] at this
    cases this
  · rw [join_chars, List.nil_append]
    obtain ⟨v, us, h2, h3⟩ := join_split ps
    rw [h2 _ (by simp), h3, List.append_assoc, List.singleton_append]
    exact splitAssign_name hL h

/-! ## Operators -/

theorem operator_plain (hL : LocaleOk L) {op : List Char} (hne : op ≠ [])
    (h : op.all (fun c => c ∈ "!=-~".toList || ('a' ≤ c && c ≤ 'z') || ('A' ≤ c && c ≤ 'Z')) = true) : ItemWord L [.str op] := by
  have hp : ∀ c ∈ op, Plain L c ∧ c ≠ '#' := by
    intro c hc
    have := List.all_eq_true.1 h c hc
    simp only [Bool.or_eq_true, Bool.and_eq_true, decide_eq_true_eq] at this
    rcases this with (h | h) | h
    · have h' : ∀ d ∈ "!=-~".toList, d ∈ "{}[]!_=-~".toList ∧ d ≠ '#' := by decide
      exact ⟨Plain.punct hL (h' c h).1, (h' c h).2⟩
    · refine ⟨Plain.alnum hL (hL.lower c h.1 h.2), ?_⟩
      rintro rfl
      exact absurd h.1 (by decide)
    · refine ⟨Plain.alnum hL (hL.upper c h.1 h.2), ?_⟩
      rintro rfl
      exact absurd h.1 (by decide)
  obtain ⟨c, s, rfl⟩ := List.exists_cons_of_ne_nil hne
  exact ⟨Plain.tokWordRT (fun d hd => (hp d hd).1) (hp c (by simp)).2, by simp, by simp⟩

theorem binary_ok (hL : LocaleOk L) {op : List Char} (h : op ∈ binaryOperators) : BinOp L op := by
  have h1 : ∀ op ∈ binaryOperators, TestBuiltin.isBinaryPrimary op = true ∧ (op = ['<'] ∨ op = ['>'] ∨ (op ≠ [] ∧
      op.all (fun c => c ∈ "!=-~".toList || ('a' ≤ c && c ≤ 'z') || ('A' ≤ c && c ≤ 'Z')) = true)) := by decide
  obtain ⟨h2, h4⟩ := h1 op h
  exact ⟨h2, h4.imp_right (.imp_right fun h => operator_plain hL h.1 h.2)⟩

theorem unary_ok (hL : LocaleOk L) {op : List Char} (h : op ∈ unaryOperators) :
    TestBuiltin.isUnaryPrimary op = true ∧ ItemWord L [.str op] ∧ reservedWordOf [.str op] ≠ .bang := by
  have h1 : ∀ op ∈ unaryOperators, TestBuiltin.isUnaryPrimary op = true ∧ (op ≠ [] ∧
      op.all (fun c => c ∈ "!=-~".toList || ('a' ≤ c && c ≤ 'z') || ('A' ≤ c && c ≤ 'Z')) = true) ∧ reservedWordOf [.str op] ≠ .bang := by decide
  obtain ⟨h2, h3, h4⟩ := h1 op h
  exact ⟨h2, operator_plain hL h3.1 h3.2, h4⟩

theorem binary_other {op : List Char} (h : op ∈ binaryOperators) : op ≠ "=~".toList := by
  rintro rfl
  exact absurd h (by decide)

theorem match_ok (hL : LocaleOk L) : BinOp L "=~".toList :=
  ⟨by decide, .inr (.inr (operator_plain hL (by decide) (by decide)))⟩

theorem regex_word (hL : LocaleOk L) {w : Word} (h : Operand L w) : RegexWord L w := by
  have := regex_rt hL (w2 := []) (r0 := [' ']) h.toItemWord ((Sep.space []).follow hL w).1 (RegexRT.done hL [] _)
    (fun _ => rfl) (by simp [h.notEnd])
  simpa using this

/-- A text that begins with the text of the parts is not `]]`. -/
theorem join_str {ps : List Piece} {acc s : List Char} (h : join acc ps = [.str s]) : ∃ t, s = acc ++ t := by
  induction ps generalizing acc with
  | nil =>
    rw [join_nil] at h
    unfold stringUnit at h
    split at h
    · cases h
    · cases h
      exact ⟨[], by simp⟩
  | cons p ps ih =>
    cases p with
    | text x =>
      rw [join_text] at h
      obtain ⟨t, rfl⟩ := ih h
      exact ⟨x ++ t, by simp⟩
    | dollar =>
      rw [join_dollar] at h
      by_cases ha : acc = []
      · subst ha
        exact ⟨s, rfl⟩
      · simp only [stringUnit, List.isEmpty_iff, ha, if_false, List.cons_append, List.nil_append, List.cons.injEq] at h
        cases h.1
        exact ⟨[], by simp⟩
    | unit u =>
      rw [join_unit] at h
      by_cases ha : acc = []
      · subst ha
        exact ⟨s, rfl⟩
      · simp only [stringUnit, List.isEmpty_iff, ha, if_false, List.cons_append, List.nil_append, List.cons.injEq] at h
        cases h.1
        exact ⟨[], by simp⟩

theorem RegexG.notEnd {nest : Nat} {ps : List Piece} {c : Char} (h : RegexG L nest ps) (h1 : firstChar ps = some c) (hc : c ≠ ']') :
    join [] ps ≠ [.str "]]".toList] := by
  have key : ∀ (x : List Char) (qs : List Piece), x.head? = some c → join [] (.text x :: qs) ≠ [.str "]]".toList] := by
    intro x qs hx he
    rw [join_text] at he
    obtain ⟨t, ht⟩ := join_str he
    cases x with
    | nil => simp at hx
    | cons d x =>
      cases hx
      simp at ht
      exact hc ht.1.symm
  cases h with
  | nil => simp [firstChar] at h1
  | char => exact key _ _ h1
  | backslash => exact key _ _ h1
  | «open» => exact key _ _ h1
  | close => exact key _ _ h1
  | dollar =>
    intro he
    rw [join_dollar] at he
    obtain ⟨t, ht⟩ := join_str (acc := ['$']) (by simpa [stringUnit] using he)
    simp at ht
  | unit hu h =>
    intro he
    rw [join_unit] at he
    simp [stringUnit] at he
    rw [he.1] at hu
    cases hu

theorem RegexG.join_ne {nest : Nat} {ps : List Piece} {c : Char} (h : RegexG L nest ps) (h1 : firstChar ps = some c) : join [] ps ≠ [] := by
  have key : ∀ (x : List Char) (qs : List Piece) , x ≠ [] → join [] (.text x :: qs) ≠ [] := by
    intro x qs hx
    rw [join_text]
    induction qs generalizing x with
    | nil => rw [join_nil]; simp [stringUnit, hx]
    | cons p qs ih =>
      cases p with
      | text y => rw [join_text]; simpa using ih (x ++ y) (by simp [hx])
      | dollar => rw [join_dollar]; simp [stringUnit, hx]
      | unit u => rw [join_unit]; simp
  cases h with
  | nil => simp [firstChar] at h1
  | char => exact key _ _ (by simp)
  | backslash => exact key _ _ (by simp)
  | «open» => exact key _ _ (by simp)
  | close => exact key _ _ (by simp)
  | @dollar _ qs =>
    rw [join_dollar]
    simpa [stringUnit, join_text] using key ['$'] qs (by simp)
  | unit => rw [join_unit]; simp

theorem lineCont_one {c : Char} (h : c = '(' ∨ c = '|') : lineCont [c] = [c] := by
  rcases h with rfl | rfl <;> rfl

theorem regex_more (hL : LocaleOk L) {w : Word} {ps : List Piece} (h1 : ItemWord L w) (h2 : RegexPiecesRT L 0 ps)
    (h3 : firstChar ps = some '(' ∨ firstChar ps = some '|') (h4 : ¬(EndsWithDollar w ∧ firstChar ps = some '(')) (h5 : join [] ps ≠ []) :
    RegexWord L (w ++ join [] ps) := by
  obtain ⟨c, hc, hp⟩ : ∃ c, (c = '(' ∨ c = '|') ∧ firstChar ps = some c := by
    rcases h3 with h | h
    · exact ⟨_, .inl rfl, h⟩
    · exact ⟨_, .inr rfl, h⟩
  have hrt := h2.rt []
  rw [hp] at hrt h4
  refine regex_rt hL (r0 := [c]) h1 ⟨lineCont_one hc, ?_⟩ (by rw [lineCont_one hc]; exact hrt) ?_ ?_
  · intro d hd
    cases hd
    rcases hc with rfl | rfl
    · exact ⟨by simp [isTokenDelimiter], fun he => absurd ⟨he, rfl⟩ h4⟩
    · exact ⟨by simp [isTokenDelimiter], fun _ => by decide⟩
  · rintro (h | h) <;> (cases h; rcases hc with h | h <;> cases h)
  · unfold isDoubleRbracket
    have : singleString (w ++ join [] ps) = none := by
      cases w with
      | nil => exact absurd rfl h1.ne
      | cons u w =>
        cases h : join [] ps with
        | nil => exact absurd h h5
        | cons v ws =>
          cases w <;> simp [singleString]
    rw [this]

theorem regex_only (hL : LocaleOk L) {ps : List Piece} (h2 : RegexPiecesRT L 0 ps) (h3 : firstChar ps = some '(' ∨ firstChar ps = some '|')
    (hg : RegexG L 0 ps) : RegexWord L (join [] ps) := by
  obtain ⟨c, hc, hp⟩ : ∃ c, (c = '(' ∨ c = '|') ∧ firstChar ps = some c := by
    rcases h3 with h | h
    · exact ⟨_, .inl rfl, h⟩
    · exact ⟨_, .inr rfl, h⟩
  have hrt := h2.rt []
  rw [hp] at hrt
  refine regex_rt_op hL hc hrt (hg.join_ne hp) ?_
  have := hg.notEnd hp (by rcases hc with rfl | rfl <;> decide)
  unfold isDoubleRbracket
  split
  · rename_i s hs
    rw [← Bool.not_eq_true]
    intro he
    simp only [beq_iff_eq] at he
    subst he
    apply this
    exact singleString_eq hs
  · rfl

theorem unaryOf_none {w : Word} (h : ∀ o ∈ unaryOperators, w ≠ [.str o]) : unaryOf w = none := by
  unfold unaryOf
  split
  · rename_i s hs
    split
    · rename_i hu
      exfalso
      have hw : w = [.str s] := by
        unfold singleString at hs
        split at hs
        · cases hs; rfl
        · cases hs
      refine h s ?_ hw
      unfold TestBuiltin.isUnaryPrimary at hu
      split at hu
      · split at hu
        all_goals first | (cases hu; done) | decide
      · cases hu
    · rfl
  · rfl

theorem notEnd {w : Word} (h : w ≠ [.str "]]".toList]) : isDoubleRbracket w = false := by
  unfold isDoubleRbracket
  split
  · rename_i s hs
    unfold singleString at hs
    split at hs
    · cases hs
      rw [beq_eq_false_iff_ne]
      rintro rfl
      exact h rfl
    · cases hs
  · rfl

theorem notBang {w : Word} (h : w ≠ [.str "!".toList]) : reservedWordOf w ≠ .bang := by
  intro hb
  unfold reservedWordOf at hb
  split at hb
  · rename_i s hs
    unfold singleString at hs
    split at hs
    · cases hs
      by_cases hk : s ∈ keywords
      · have : ∀ s ∈ keywords, s ≠ "!".toList → reservedWord s ≠ .bang := by decide
        refine this s hk ?_ hb
        rintro rfl
        exact h rfl
      · rw [reservedWord_word hk] at hb
        cases hb
    · cases hs
  · cases hb

/-! ## Compound commands -/

theorem PiecesG.head_ne {p : Place} {ps : List Piece} (h : PiecesG L p false ps) {c : Char} (hc : c = '#' ∨ c = '%')
    (hne : ps.head? ≠ some (.text [c])) : firstChar ps ≠ some c := by
  intro hh
  by_cases hps : ps = []
  · subst hps
    cases hh
  · obtain ⟨d, h1, h2, h3⟩ := h.head hps
    rw [h1] at hh
    cases hh
    rcases hc with rfl | rfl
    · exact hne (h2 rfl rfl)
    · exact hne (h3 rfl rfl)

theorem if_rt (hL : LocaleOk L) {rs : List Redir} {cs : List (List AndOr × List AndOr)} {e : Option (List AndOr)} (h1 : cs ≠ [])
    (h2 : ∀ c ∈ cs, c.1 ≠ []) (h3 : ∀ c ∈ cs, ListRT L c.1) (h4 : ∀ c ∈ cs, ListRT L c.2) (h5 : ∀ l ∈ e, ListRT L l)
    (h6 : ∀ x ∈ rs, RedirRT L x) : CompRT L (.ifs rs (cs.map (fun c => .cond c.1 c.2) ++ (e.map .els).toList)) := by
  obtain ⟨c, cs, rfl⟩ := List.exists_cons_of_ne_nil h1
  refine comp_if hL (c := .cond c.1 c.2) ?_ h6
  intro x hx
  have hx : x ∈ (c :: cs).map (fun c : List AndOr × List AndOr => IfClause.cond c.1 c.2) ++ (e.map .els).toList := hx
  rw [List.mem_append] at hx
  rcases hx with hx | hx
  · obtain ⟨d, hd, rfl⟩ := List.mem_map.1 hx
    exact ⟨h2 d hd, h3 d hd, h4 d hd⟩
  · cases e with
    | none => simp at hx
    | some l =>
      simp at hx
      subst hx
      exact h5 l rfl

theorem case_rt (hL : LocaleOk L) {rs : List Redir} {w : Word} {cs : List (List Word × List AndOr)} (h1 : ItemWord L w) (h2 : ∀ c ∈ cs, c.1 ≠ [])
    (h3 : ∀ c ∈ cs, ∀ p ∈ c.1, ItemWord L p) (h4 : ∀ c ∈ cs, ListRT L c.2) (h5 : ∀ x ∈ rs, RedirRT L x) :
    CompRT L (.cases rs w (cs.map fun c => .mk c.1 c.2)) := by
  refine comp_case hL h1 ?_ h5
  intro x hx
  obtain ⟨d, hd, rfl⟩ := List.mem_map.1 hx
  exact ⟨h2 d hd, h3 d hd, h4 d hd⟩

/-! ## All the parts of the grammar -/

mutual

theorem UnitG.rt (hL : LocaleOk L) : ∀ {u : WordUnit}, UnitG L u → UnitRT L u ∧ ∀ t, u ≠ .str t
  | _, .param h1 h2 h3 h4 => ⟨param_rt (h1.rt hL) (h2.rt hL) (h3.rt hL) h4, by simp⟩
  | _, .command h => ⟨cmdsub_rt hL (h.rt hL), by simp⟩
  | _, .arith h => ⟨arith_rt ((h.rt hL).rt []), by simp⟩

theorem BaseG.rt (hL : LocaleOk L) : ∀ {u : ParamBase}, BaseG L u → BaseRT' L u
  | _, .name h => .name hL h
  | _, .nest h => .nest (h.rt hL).1

theorem IndexG.rt (hL : LocaleOk L) : ∀ {v w : Word}, IndexG L v w → IndexRT L v w
  | _, _, .none => .none
  | _, _, .one h1 h2 => .one (h1.rt hL) h2
  | _, _, .two h1 h2 h3 h4 => .two (h1.rt hL) h2 (h3.rt hL) h4

theorem ModG.rt (hL : LocaleOk L) : ∀ {t : ParamType} {v w : Word}, ModG L t v w → ModRT L t v w
  | _, _, _, .plain => .plain false
  | _, _, _, .length => .plain true
  | _, _, _, .value h1 h2 => .value h1 (h2.rt hL)
  | _, _, _, .shortPrefix h1 h2 => .short (head := true) (h1.rt hL) (h1.head_ne (.inl rfl) h2)
  | _, _, _, .longPrefix h1 => .long (head := true) (h1.rt hL)
  | _, _, _, .shortSuffix h1 h2 => .short (head := false) (h1.rt hL) (h1.head_ne (.inr rfl) h2)
  | _, _, _, .longSuffix h1 => .long (head := false) (h1.rt hL)
  | _, _, _, .replaceFirst h1 h2 h3 h4 h5 => .first (h1.rt hL) h2 (h1.head_ne (.inl rfl) h3) (h1.head_ne (.inr rfl) h4) (h5.rt hL)
  | _, _, _, .replaceAll h1 h2 => .flag (f := '/') (h1.rt hL) (h2.rt hL) (.inl ⟨rfl, rfl⟩)
  | _, _, _, .replacePrefix h1 h2 => .flag (f := '#') (h1.rt hL) (h2.rt hL) (.inr (.inl ⟨rfl, rfl⟩))
  | _, _, _, .replaceSuffix h1 h2 => .flag (f := '%') (h1.rt hL) (h2.rt hL) (.inr (.inr ⟨rfl, rfl⟩))
  | _, _, _, .replaceWhole h1 h2 => .whole (h1.rt hL) (h2.rt hL)

theorem PiecesG.rt (hL : LocaleOk L) : ∀ {p : Place} {q : Bool} {ps : List Piece}, PiecesG L p q ps → PiecesRT L p q ps
  | _, _, _, .nil p => .nil p
  | _, _, _, .char h1 h2 h3 => .char h1 h2 (h3.rt hL)
  | _, _, _, .backslash h1 h2 => .backslash hL h1 (h2.rt hL)
  | _, _, _, .single h1 h2 => .single hL h1 (h2.rt hL)
  | _, _, _, .open h1 => .mark hL (h1.rt hL)
  | _, _, _, .close h1 => .mark hL (h1.rt hL)
  | _, _, _, .quoted h1 h2 => .quoted h1 (h2.rt hL)
  | _, _, _, .dollar h1 h2 => .dollar hL h1 (h2.rt hL)
  | _, _, _, .unit h1 h2 => .unit hL (h1.rt hL).1 (h1.rt hL).2 (h2.rt hL)

theorem ArithG.rt (hL : LocaleOk L) : ∀ {n : Nat} {ps : List Piece}, ArithG L n ps → ArithPiecesRT L n ps
  | _, _, .nil => .nil
  | _, _, .char h1 h2 => .char h1 (h2.rt hL)
  | _, _, .backslash h1 h2 => .backslash h1 (h2.rt hL)
  | _, _, .open h1 => .open (h1.rt hL)
  | _, _, .close h1 => .close (h1.rt hL)
  | _, _, .dollar h1 h2 => .dollar h1 (h2.rt hL)
  | _, _, .unit h1 h2 => .unit (h1.rt hL).1 (h2.rt hL)

theorem WordG.rt (hL : LocaleOk L) : ∀ {w : Word}, WordG L w → ItemWord L w
  | _, .mk h1 h2 h3 => (h1.rt hL).item h2 (h1.head_ne (.inl rfl) h3)

theorem RegexG.rt (hL : LocaleOk L) : ∀ {nest : Nat} {ps : List Piece}, RegexG L nest ps → RegexPiecesRT L nest ps
  | _, _, .nil => .nil hL
  | _, _, .char h1 h2 h3 => .char h1 h2 (h3.rt hL)
  | _, _, .backslash h1 h2 => .backslash h1 (h2.rt hL)
  | _, _, .open h1 => .open (h1.rt hL)
  | _, _, .close h1 => .close (h1.rt hL)
  | _, _, .dollar h1 h2 => .dollar h1 (h2.rt hL)
  | _, _, .unit h1 h2 => .unit (h1.rt hL).1 (h2.rt hL)

theorem RegexWordG.rt (hL : LocaleOk L) : ∀ {w : Word}, RegexWordG L w → RegexWord L w
  | _, .word h1 h2 => regex_word hL ⟨h1.rt hL, notEnd h2⟩
  | _, .more h1 h2 h3 h4 => regex_more hL (h1.rt hL) (h2.rt hL) h3 h4 (h2.join_ne (c := _) (Option.some_get (by rcases h3 with h | h <;> simp [h])).symm)
  | _, .only h1 h2 => regex_only hL (h1.rt hL) h2 h1

theorem AssignG.rt (hL : LocaleOk L) : ∀ {a : Assign}, AssignG L a → AssignRT L a
  | _, .scalar h1 h2 h3 =>
    have ⟨_, h4, h5⟩ := assign_word hL h1 (h2.rt hL)
    assign_scalar hL h5 h4 h3
  | _, .array h1 h2 h3 =>
    have ⟨_, h4, h5⟩ := assign_word hL h1 (.nil .token)
    assign_array hL h5 h4 (fun w hw => (h2 w hw).rt hL) h3

theorem RedirG.rt (hL : LocaleOk L) : ∀ {r : Redir}, RedirG L r → RedirRT L r
  | _, .file h1 h2 h3 => redir_file hL h1 (h2.rt hL).rt (h2.rt hL).ne (h2.rt hL).strs h3
  | _, .proc h1 h2 => redir_proc hL h1 (h2.rt hL)

theorem CommandG.rt (hL : LocaleOk L) : ∀ {c : Command}, CommandG L c → CmdRT L c
  | _, .simple h1 h2 h3 h4 h5 h6 h7 => cmd_simple hL (fun x hx => (h1 x hx).rt hL) (fun x hx => (h3 x hx).rt hL) h4
    (fun w hw => splitAssign_none (h5 w hw)) (fun x hx => (h2 x hx).rt hL) h6 h7
  | _, .compound h => (h.rt hL).cmd
  | _, .function h1 h2 h3 => cmd_function hL ((name_iff _).1 h1) (fun ⟨_, hk, he⟩ => h2 (by cases he; exact hk)) (h3.rt hL)

theorem CompoundG.rt (hL : LocaleOk L) : ∀ {c : Command}, CompoundG L c → CompRT L c
  | _, .group h1 h2 => comp_group hL (h1.rt hL) (fun x hx => (h2 x hx).rt hL)
  | _, .subshell h1 h2 => comp_subshell hL (h1.rt hL) (fun x hx => (h2 x hx).rt hL)
  | _, .if h1 h2 h3 h4 h5 h6 =>
    if_rt hL h1 h2 (fun c hc => (h3 c hc).rt hL) (fun c hc => (h4 c hc).rt hL) (fun l hl => (h5 l hl).rt hL) (fun x hx => (h6 x hx).rt hL)
  | _, .for h1 h2 h3 h4 => comp_for hL (isNameBy_of h1) (fun v hv w hw => (h2 v hv w hw).rt hL) (h3.rt hL) (fun x hx => (h4 x hx).rt hL)
  | _, .while h1 h2 h3 => comp_while hL _ (h1.rt hL) (h2.rt hL) (fun x hx => (h3 x hx).rt hL)
  | _, .case h1 h2 h3 h4 h5 =>
    case_rt hL (h1.rt hL) h2 (fun c hc p hp => (h3 c hc p hp).rt hL) (fun c hc => (h4 c hc).rt hL) (fun x hx => (h5 x hx).rt hL)
  | _, .bracket h1 h2 => comp_bracket hL (h1.rt hL) (fun x hx => (h2 x hx).rt hL)
  | _, .function h1 h2 h3 h4 => comp_function hL (h1.rt hL) (Bool.eq_false_iff.2 fun h => h2 ((name_iff _).2 h)) h3 (h4.rt hL)

theorem DbG.rt (hL : LocaleOk L) : ∀ {e : DbExp}, DbG L e → DbRT L e
  | _, .or h1 h2 h3 => ⟨h1, h2.rt hL, h3.rt hL⟩
  | _, .and h1 h2 h3 => ⟨h1, h2.rt hL, h3.rt hL⟩
  | _, .not h => h.rt hL
  | _, .unary h1 h2 h3 => ⟨(unary_ok hL h1).1, (unary_ok hL h1).2.1, (unary_ok hL h1).2.2, ⟨h2.rt hL, notEnd h3⟩⟩
  | _, .binary h1 h2 h3 h4 h5 h6 h7 => ⟨binary_ok hL h1, ⟨⟨h2.rt hL, notEnd h3⟩, unaryOf_none h5, notBang h4⟩,
    fun h => absurd h (binary_other h1), fun _ => ⟨h6.rt hL, notEnd h7⟩⟩
  | _, .regex h2 h3 h4 h5 h6 => ⟨match_ok hL, ⟨⟨h2.rt hL, notEnd h3⟩, unaryOf_none h5, notBang h4⟩,
    fun _ => h6.rt hL, fun h => absurd rfl h⟩
  | _, .string h2 h3 h4 h5 => ⟨⟨h2.rt hL, notEnd h3⟩, unaryOf_none h5, notBang h4⟩

theorem ListG.rt (hL : LocaleOk L) : ∀ {l : List AndOr}, ListG L l → ListRT L l
  | _, .mk h1 h2 h3 => list_rt hL _ fun
    | .mk ps async, ha => ⟨fun
      | .mk cs neg cond, hp => ⟨h2 ps async cs neg cond ha hp, fun c hc => (h3 ps async cs neg cond c ha hp hc).rt hL⟩, h1 ps async ha⟩

end

end Yash.Parser.Grammar
