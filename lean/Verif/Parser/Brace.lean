import Verif.Parser.Params
/-!
# Parameter expansions are read back: the whole expansion
-/
set_option autoImplicit false

namespace Yash.Parser

open Syntax Spec
open Expand (Locale)

variable {L : Locale}

/-! ## Indices -/

theorem param_index {R : Rec} (hs : GoodSpecial L R.special) {b r : List Char} {start stop : Word} {st : Src} (hnt : NT r)
    (h : paramIndex R ⟨b, r⟩ = some (start, stop, st)) :
    NT st.rest ∧ (r.head? ≠ some '[' → start = [] ∧ stop = [] ∧ st = ⟨b, r⟩) ∧
    (WordOk L start → WordOk L stop → ∀ ml i buf, ∃ s, printIdx L ml i start stop buf = buf ++ s ∧
      (s ≠ [] → s.head? = some '[' ∧ r.head? = some '[') ∧ (s = [] → r.head? ≠ some '[') ∧
      ∀ b rr, lineCont rr = rr → rr.head? ≠ some '[' → Ev fun m =>
        paramIndex (parser L m) ⟨b, s ++ rr⟩ = some (start, stop, ⟨s.reverse ++ b, rr⟩)) := by
  have hne : ∀ (R : Rec) (b r : List Char), r.head? ≠ some '[' → paramIndex R ⟨b, r⟩ = some ([], [], ⟨b, r⟩) := by
    intro R b r hr
    unfold paramIndex
    split
    · rename_i heq
      cases heq
      exact absurd rfl hr
    · rfl
  by_cases hr : r.head? = some '['
  · cases r with
    | nil => simp at hr
    | cons c r =>
      simp at hr
      subst hr
      simp only [paramIndex, Option.bind_eq_bind, Option.bind_eq_some_iff] at h
      obtain ⟨⟨w, st1⟩, h1, h⟩ := h
      have hw := parse_word hs hnt.tail h1
      simp only at h
      split at h
      · cases h
      rename_i hwe
      simp at hwe
      have hf1 : ∀ rr, Follow isCommaOrClosingBracket w (']' :: rr) := fun rr => Follow.cons rfl (by decide) (by decide)
      have hf2 : ∀ rr, Follow isCommaOrClosingBracket w (',' :: rr) := fun rr => Follow.cons rfl (by decide) (by decide)
      split at h
      · rename_i b1 r1
        cases h
        refine ⟨hw.nt.tail.lineCont, by simp, ?_⟩
        intro hok _ ml i buf
        obtain ⟨s, h2, h3, h4, h5, h6⟩ := (hw.rt hok).parse ml i (buf ++ ['['])
        refine ⟨'[' :: s ++ [']'], ?_, by simp, by simp, ?_⟩
        · cases start with
          | nil => exact absurd rfl hwe
          | cons u w =>
            simp only [printIdx]
            rw [h2]
            simp
        · intro b rr hrr _
          refine (h6 ('[' :: b) _ (hf1 rr)).mono fun m e => ?_
          simp only [List.cons_append, List.append_assoc, List.nil_append, paramIndex, e, Option.bind_eq_bind, Option.bind_some]
          rw [if_neg (by simpa using hwe)]
          simp [hrr]
      · rename_i b1 r1
        simp only [Option.bind_eq_some_iff] at h
        obtain ⟨⟨w', st2⟩, h2, h⟩ := h
        have hw' := parse_word hs hw.nt.tail h2
        simp only at h
        split at h
        · cases h
        rename_i hwe'
        simp at hwe'
        have hf3 : ∀ rr, Follow isCommaOrClosingBracket w' (']' :: rr) := fun rr => Follow.cons rfl (by decide) (by decide)
        split at h
        · rename_i b2 r2
          cases h
          refine ⟨hw'.nt.tail.lineCont, by simp, ?_⟩
          intro hok1 hok2 ml i buf
          obtain ⟨s, hp, h3, h4, h5, h6⟩ := (hw.rt hok1).parse ml i (buf ++ ['['])
          obtain ⟨s', h2', h3', h4', h5', h6'⟩ := (hw'.rt hok2).parse ml i (buf ++ ['['] ++ s ++ [','])
          refine ⟨'[' :: s ++ ',' :: s' ++ [']'], ?_, by simp, by simp, ?_⟩
          · cases start with
            | nil => exact absurd rfl hwe
            | cons u w =>
              cases stop with
              | nil => exact absurd rfl hwe'
              | cons u' w' =>
                simp only [printIdx]
                rw [hp, h2']
                simp
          · intro b rr hrr _
            refine (h6 ('[' :: b) _ (hf2 (s' ++ ']' :: rr))).mono2 (h6' (',' :: (s.reverse ++ '[' :: b)) _ (hf3 rr)) fun m e e' => ?_
            simp only [List.cons_append, List.append_assoc, List.nil_append, paramIndex, e, Option.bind_eq_bind, Option.bind_some]
            rw [if_neg (by simpa using hwe)]
            simp only [e', Option.bind_some]
            rw [if_neg (by simpa using hwe')]
            simp [hrr]
        · cases h
      · cases h
  · rw [hne R b r hr] at h
    cases h
    refine ⟨hnt, fun _ => ⟨rfl, rfl, rfl⟩, ?_⟩
    intro _ _ ml i buf
    refine ⟨[], by simp [printIdx], by simp, fun _ => hr, ?_⟩
    intro b rr _ hh
    exact .of fun m => by simpa using hne (parser L m) b rr hh

/-! ## Names -/

theorem takeName_nil (p : Char → Bool) : takeName p [] = ([], []) := by simp [takeName]

theorem takeName_lineCont (p : Char → Bool) (r : List Char) : takeName p ('\\' :: '\n' :: r) = takeName p r := by
  rw [takeName]

theorem takeName_cons (p : Char → Bool) {c : Char} {r : List Char} (h : lineCont (c :: r) = c :: r) :
    takeName p (c :: r) = if p c then (c :: (takeName p r).1, (takeName p r).2) else ([], c :: r) := by
  rw [takeName.eq_def]
  split
  · rename_i heq; cases heq
  · rename_i heq
    cases heq
    exact absurd rfl (normal_bs h)
  · rename_i heq
    cases heq
    rfl

theorem takeName_text (p : Char → Bool) (hp : p '\\' = false) (n r : List Char) (hn : ∀ c ∈ n, p c = true)
    (hr : lineCont r = r) (hh : ∀ c ∈ r.head?, p c = false) : takeName p (n ++ r) = (n, r) := by
  induction n with
  | nil =>
    cases r with
    | nil => simp [takeName]
    | cons c r =>
      rw [List.nil_append, takeName_cons p hr, if_neg (by simp [hh c (by simp)])]
  | cons c n ih =>
    have hc := hn c (by simp)
    have hcb : c ≠ '\\' := by rintro rfl; simp [hp] at hc
    rw [List.cons_append, takeName_cons p (lineCont_id hcb), if_pos hc, ih fun d hd => hn d (by simp [hd])]

theorem takeName_result (p : Char → Bool) (r : List Char) : (∀ c ∈ (takeName p r).1, p c = true) ∧
    (NT r → NT (takeName p r).2) ∧ lineCont (takeName p r).2 = (takeName p r).2 ∧
    (∀ c ∈ (takeName p r).2.head?, p c = false) := by
  induction hn : r.length using Nat.strongRecOn generalizing r with
  | ind n ih =>
    cases r with
    | nil => simp [takeName]
    | cons c r =>
      rcases lineCont_cases (c :: r) with h | ⟨t, h⟩
      · rw [takeName_cons p h]
        split
        · rename_i hc
          obtain ⟨h1, h2, h3, h4⟩ := ih r.length (by subst hn; simp) r rfl
          exact ⟨by simpa [hc] using h1, fun hnt => h2 hnt.tail, h3, h4⟩
        · rename_i hc
          exact ⟨by simp, fun hnt => hnt, h, by simpa using hc⟩
      · cases h
        rw [takeName_lineCont]
        obtain ⟨h1, h2, h3, h4⟩ := ih t.length (by subst hn; simp; omega) t rfl
        exact ⟨h1, fun hnt => h2 hnt.tail.tail, h3, h4⟩

theorem takeName_head (p : Char → Bool) {c : Char} {r : List Char} (h : lineCont (c :: r) = c :: r)
    {d : Char} {n r' : List Char} (ht : takeName p (c :: r) = (d :: n, r')) : d = c := by
  rw [takeName_cons p h] at ht
  split at ht
  · cases ht; rfl
  · cases ht

theorem isNameChar_alnum (hL : LocaleOk L) {c : Char} (h : c ∈ "'\"\\$`;&|<>()~#*?[]{},:=!^\n+@%/-. ".toList) :
    isNameChar L c = false := by
  have h1 : L.alnum c = false := by
    rw [show "'\"\\$`;&|<>()~#*?[]{},:=!^\n+@%/-. ".toList = "'\"\\$`;&|<>()~#*?[]{},:=!^\n+@%".toList ++ "/-. ".toList by decide] at h
    rcases List.mem_append.1 h with h | h
    · exact hL.ok.alnum_special c h
    · exact hL.punct c h
  have h2 : c ≠ '_' := by
    rintro rfl
    exact absurd h (by decide)
  simp [isNameChar, h1, h2]

/-- The characters after the name. -/
def isTailChar (c : Char) : Bool := isModChar c || c == ':' || c == '['

theorem isTailChar_name (hL : LocaleOk L) {c : Char} (h : isTailChar c = true) : isNameChar L c = false := by
  apply isNameChar_alnum hL
  simp [isTailChar, isModChar] at h
  rcases h with ((((((((h | h) | h) | h) | h) | h) | h) | h) | h) | h <;> subst h <;> decide

theorem paramBase_name {R : Rec} {b r : List Char} (h1 : r.head? ≠ some '{') (h2 : r.head? ≠ some '`') (h3 : r.head? ≠ some '$') :
    paramBase L R ⟨b, r⟩ = paramName L b r := by
  unfold paramBase
  split
  · rename_i heq; cases heq; exact absurd rfl h1
  · rename_i heq; cases heq; exact absurd rfl h2
  · rename_i heq; cases heq; exact absurd rfl h3
  · rename_i heq; cases heq; rfl

/-- The text of what is expanded. -/
def BaseRT (L : Locale) (base : ParamBase) (h : Option Char) : Prop :=
  ∀ ml i buf, ∃ c t, printBase L ml i base buf = buf ++ c :: t ∧ c ≠ '\\' ∧
    (c = '-' ∨ c = '?' ∨ c = '#' → h = some c ∧ t = []) ∧ c ∉ "}+=:/%".toList ∧
    ∀ b rr, lineCont rr = rr → (∀ d ∈ rr.head?, isTailChar d = true) → Ev fun m =>
      paramBase L (parser L m) ⟨b, c :: t ++ rr⟩ = some (base, ⟨(c :: t).reverse ++ b, rr⟩)

theorem BaseRT.nest {u : WordUnit} (hu : UnitRT L u) (h : Option Char) : BaseRT L (.nest u) h := by
  intro ml i buf
  obtain ⟨c, s, h1, h2, h3⟩ := hu ml i buf
  refine ⟨'$', c :: s, by simpa [printBase] using h1, by decide, by simp, by decide, ?_⟩
  intro b rr hrr _
  refine (h3 b rr false).mono fun m e => ?_
  have hc : lineCont (c :: (s ++ rr)) = c :: (s ++ rr) := lineCont_id (by rcases h2 with rfl | rfl <;> decide)
  simp only [List.cons_append] at e
  simp only [List.cons_append, paramBase, hc]
  rw [if_pos (by rcases h2 with rfl | rfl <;> simp), e]
  simp [hrr]

theorem param_name (hL : LocaleOk L) {b r : List Char} {base : ParamBase} {st : Src} (hnt : NT r) (hn : lineCont r = r)
    (h : paramName L b r = some (base, st)) :
    NT st.rest ∧ (∀ c r', r = c :: r' → (c = '-' ∨ c = '?' ∨ c = '#') → st.rest = r') ∧ BaseRT L base r.head? := by
  unfold paramName at h
  cases r with
  | nil => cases h
  | cons c r =>
    simp only at h
    by_cases hc : isSpecialParam c = true
    · rw [if_pos hc] at h
      cases h
      refine ⟨hnt.tail, by simp, ?_⟩
      intro ml i buf
      have hc' : c = '@' ∨ c = '*' ∨ c = '#' ∨ c = '?' ∨ c = '-' ∨ c = '$' ∨ c = '!' := by
        simpa [isSpecialParam, or_assoc] using hc
      refine ⟨c, [], by simp [printBase], ?_, by simp, ?_, ?_⟩
      · rintro rfl; exact absurd hc (by decide)
      · rcases hc' with h | h | h | h | h | h | h <;> subst h <;> decide
      · intro b rr hrr hh
        refine .of fun m => ?_
        by_cases hd : c = '$'
        · subst hd
          simp only [List.cons_append, List.nil_append, paramBase, hrr]
          have : ¬((rr.head? == some '{' || rr.head? == some '(') = true) := by
            cases rr with
            | nil => simp
            | cons d rr =>
              have := hh d (by simp)
              simp
              constructor <;> (rintro rfl; exact absurd this (by decide))
          rw [if_neg this]
          simp [paramName, hc]
        · have hx : paramBase L (parser L m) ⟨b, [c] ++ rr⟩ = paramName L b ([c] ++ rr) := by
            apply paramBase_name <;>
              (simp; rcases hc' with h | h | h | h | h | h | h <;> subst h <;> first | decide | exact absurd rfl hd)
          rw [hx]
          simp [paramName, hc]
    · rw [if_neg hc] at h
      obtain ⟨h1, h2, h3, h4⟩ := takeName_result (isNameChar L) (c :: r)
      split at h
      · cases h
      · rename_i n r1 hne ht
        cases h
        rw [ht] at h1 h2 h3 h4
        simp only at h1 h2 h3 h4
        have hcs : ¬(c = '-' ∨ c = '?' ∨ c = '#') := by
          rintro (h | h | h) <;> subst h <;> exact absurd hc (by decide)
        refine ⟨h2 hnt, ?_, ?_⟩
        · intro c' r' hr hc'
          cases hr
          exact absurd hc' hcs
        · intro ml i buf
          cases n with
          | nil => exact absurd rfl hne
          | cons d n =>
            have hdc := takeName_head _ hn ht
            subst hdc
            have hname := h1 d (by simp)
            have hno : ∀ x ∈ "'\"\\$`;&|<>()~#*?[]{},:=!^\n+@%/-. ".toList, d ≠ x := by
              intro x hx hdx
              subst hdx
              rw [isNameChar_alnum hL hx] at hname
              cases hname
            refine ⟨d, n, by simp [printBase], hno _ (by decide), fun h => absurd h hcs, ?_, ?_⟩
            · intro hd
              refine hno d ?_ rfl
              revert hd
              clear hno hname
              simp
              rintro (h | h | h | h | h | h) <;> subst h <;> decide
            · intro b rr hrr hh
              refine .of fun m => ?_
              have hx : paramBase L (parser L m) ⟨b, d :: n ++ rr⟩ = paramName L b (d :: n ++ rr) := by
                apply paramBase_name <;> simp [hno '{' (by decide), hno '`' (by decide), hno '$' (by decide)]
              rw [hx]
              simp only [List.cons_append, paramName]
              rw [if_neg hc]
              have := takeName_text (isNameChar L) (isNameChar_alnum hL (by decide)) (d :: n) rr h1 hrr
                fun e he => isTailChar_name hL (hh e he)
              simp only [List.cons_append] at this
              rw [this]

/-- What the parser of parameter expansions does. -/
def GoodBrace (L : Locale) (brace : Src → Option (WordUnit × Src)) : Prop :=
  ∀ b r u st, NT r → brace ⟨b, r⟩ = some (u, st) → NT st.rest ∧ (UnitOk L u → UnitRT L u)

theorem param_base (hL : LocaleOk L) {R : Rec} (hs : GoodSpecial L R.special) (hb : GoodBrace L R.brace) {b r : List Char}
    {base : ParamBase} {st : Src} (hnt : NT r) (hn : lineCont r = r) (h : paramBase L R ⟨b, r⟩ = some (base, st)) :
    NT st.rest ∧ (∀ c r', r = c :: r' → (c = '-' ∨ c = '?' ∨ c = '#') → st.rest = r') ∧ (BaseOk L base → BaseRT L base r.head?) := by
  unfold paramBase at h
  split at h
  · rename_i b1 r1 heq
    cases heq
    simp only [Option.bind_eq_bind, Option.bind_eq_some_iff] at h
    obtain ⟨⟨u, st1⟩, h1, h⟩ := h
    cases h
    obtain ⟨h2, h3⟩ := hb _ _ _ _ hnt.tail h1
    refine ⟨h2, ?_, fun hok => BaseRT.nest (h3 (by simpa [BaseOk] using hok)) _⟩
    intro c r' hc hc'
    cases hc
    simp at hc'
  · rename_i b1 r1 heq
    cases heq
    split at h
    · rename_i u st1 hu
      cases h
      obtain ⟨h1, h2, h3⟩ := hs.unit _ _ _ _ _ _ hnt hu
      refine ⟨h1.lineCont, ?_, fun hok => BaseRT.nest (h3 (by simpa [BaseOk] using hok)).2 _⟩
      intro c r' hc hc'
      cases hc
      simp at hc'
    · cases h
  · rename_i b1 r1 heq
    cases heq
    have hnt' : NT ('$' :: lineCont r1) := hnt.tail.lineCont.cons (by decide)
    split at h
    · split at h
      · rename_i u st1 hu
        cases h
        obtain ⟨h1, h2, h3⟩ := hs.unit _ _ _ _ _ _ hnt' hu
        refine ⟨h1.lineCont, ?_, fun hok => BaseRT.nest (h3 (by simpa [BaseOk] using hok)).2 _⟩
        intro c r' hc hc'
        cases hc
        simp at hc'
      · cases h
    · obtain ⟨h1, h2, h3⟩ := param_name hL hnt' (lineCont_id (by decide)) h
      refine ⟨h1, ?_, fun _ => h3⟩
      intro c r' hc hc'
      cases hc
      simp at hc'
  · rename_i heq
    cases heq
    obtain ⟨h1, h2, h3⟩ := param_name hL hnt hn h
    exact ⟨h1, h2, fun _ => h3⟩

/-! ## The number sign -/

theorem numberMark_other {b r : List Char} (hn : lineCont r = r) (h : r.head? ≠ some '#') : numberMark b r = (false, ⟨b, r⟩) := by
  unfold numberMark
  rw [hn]
  split
  · rename_i heq
    exact absurd rfl h
  · rfl

theorem numberMark_sharp (b : List Char) {c : Char} {r : List Char} (hn : lineCont (c :: r) = c :: r) : numberMark b ('#' :: c :: r) =
    if c == '}' || c == '+' || c == '=' || c == ':' || c == '/' || c == '%' then (false, ⟨b, '#' :: c :: r⟩)
    else if c == '-' || c == '?' || c == '#' then
      if (lineCont r).head? == some '}' then (true, ⟨'#' :: b, c :: lineCont r⟩) else (false, ⟨b, '#' :: c :: lineCont r⟩)
    else (true, ⟨'#' :: b, c :: r⟩) := by
  unfold numberMark
  rw [lineCont_id (by decide)]
  simp only
  rw [hn]

theorem number_mark {b r : List Char} {number : Bool} {st : Src} (hnt : NT r) (h : numberMark b r = (number, st)) :
    NT st.rest ∧ lineCont st.rest = st.rest ∧
    ((number = false ∧ st.rest.head? ≠ some '#') ∨
      (number = false ∧ st.rest = ['#']) ∨
      (number = false ∧ ∃ c r', st.rest = '#' :: c :: r' ∧ lineCont (c :: r') = c :: r' ∧ (c ∈ "}+=:/%".toList ∨
        ((c = '-' ∨ c = '?' ∨ c = '#') ∧ lineCont r' = r' ∧ r'.head? ≠ some '}'))) ∨
      (number = true ∧ ∃ c r', st.rest = c :: r' ∧ c ∉ "}+=:/%".toList ∧
        ((c = '-' ∨ c = '?' ∨ c = '#') → lineCont r' = r' ∧ r'.head? = some '}'))) := by
  unfold numberMark at h
  have hnt := hnt.lineCont
  have hn := lineCont_idem r
  split at h
  · rename_i r1 hr1
    rw [hr1] at hnt hn
    have hnt1 := hnt.tail.lineCont
    have hn1 := lineCont_idem r1
    split at h
    · cases h
      exact ⟨by simp [NT], lineCont_id (by decide), .inr (.inl ⟨rfl, rfl⟩)⟩
    · rename_i c r2 hr2
      rw [hr2] at hnt1 hn1
      split at h
      · rename_i hc
        cases h
        refine ⟨hnt1.cons (by decide), lineCont_id (by decide), .inr (.inr (.inl ⟨rfl, c, r2, rfl, hn1, .inl ?_⟩))⟩
        simp at hc ⊢
        simpa [or_assoc] using hc
      · rename_i hc
        have hc' : c ∉ "}+=:/%".toList := by
          simp at hc ⊢
          simpa [and_assoc] using hc
        split at h
        · rename_i hc2
          have hc2' : c = '-' ∨ c = '?' ∨ c = '#' := by simpa [or_assoc] using hc2
          have hcb : c ≠ '\\' := by rintro rfl; simp at hc2
          have hnt2 : NT (c :: lineCont r2) := (hnt1.tail.lineCont).cons hcb
          split at h
          · rename_i hh
            cases h
            exact ⟨hnt2, lineCont_id hcb, .inr (.inr (.inr ⟨rfl, c, _, rfl, hc', fun _ => ⟨lineCont_idem _, by simpa using hh⟩⟩))⟩
          · rename_i hh
            cases h
            exact ⟨hnt2.cons (by decide), lineCont_id (by decide),
              .inr (.inr (.inl ⟨rfl, c, _, rfl, lineCont_id hcb, .inr ⟨hc2', lineCont_idem _, by simpa using hh⟩⟩))⟩
        · rename_i hc2
          cases h
          refine ⟨hnt1, hn1, .inr (.inr (.inr ⟨rfl, c, _, rfl, hc', fun h => absurd h ?_⟩))⟩
          simpa [and_assoc, not_or] using hc2
  · rename_i hne
    cases h
    refine ⟨hnt, hn, .inl ⟨rfl, ?_⟩⟩
    intro hh
    cases hl : lineCont r with
    | nil => simp [hl] at hh
    | cons x y =>
      simp [hl] at hh
      subst hh
      exact hne _ hl

/-! ## The whole expansion -/

theorem isTailChar_bs {c : Char} (h : isTailChar c = true) : c ≠ '\\' := by
  rintro rfl
  exact absurd h (by decide)

theorem paramColon_other {b r : List Char} (h : r.head? ≠ some ':') : paramColon ⟨b, r⟩ = (false, ⟨b, r⟩) := by
  unfold paramColon
  split
  · rename_i heq; cases heq; exact absurd rfl h
  · rfl

/-- A parameter expansion that was read is read back. -/
theorem brace_good (hL : LocaleOk L) {R : Rec} (hs : GoodSpecial L R.special) (hb : GoodBrace L R.brace) :
    GoodBrace L (brace L R) := by
  intro b0 r0 u st hnt h
  simp only [brace, Option.bind_eq_bind, Option.bind_eq_some_iff] at h
  obtain ⟨⟨base, st1⟩, h1, ⟨start, stop, st2⟩, h2, ⟨type, pattern, subst, st3⟩, h3, h⟩ := h
  cases h
  obtain ⟨hnt0, hn0, hnum⟩ := number_mark (st := (numberMark b0 r0).2) (number := (numberMark b0 r0).1) hnt rfl
  obtain ⟨hnt1, hb1, hb2⟩ := param_base hL hs hb hnt0 hn0 h1
  obtain ⟨hnt2, hi1, hi2⟩ := param_index hs hnt1 h2
  have hcolon : NT (paramColon st2).2.rest ∧ ((paramColon st2).1 = false → (paramColon st2).2 = st2 ∧ st2.rest.head? ≠ some ':') ∧
      ((paramColon st2).1 = true → st2.rest.head? = some ':') := by
    unfold paramColon
    split
    · refine ⟨hnt2.tail.lineCont, by simp, by simp⟩
    · rename_i hne
      refine ⟨hnt2, fun _ => ⟨rfl, ?_⟩, by simp⟩
      intro hh
      obtain ⟨b2, r2⟩ := st2
      cases r2 with
      | nil => simp at hh
      | cons c r2 =>
        simp at hh
        subst hh
        exact hne _ _ rfl
  obtain ⟨hntc, hc1, hc2⟩ := hcolon
  obtain ⟨hnt3, hm1, hm2, hm3⟩ := param_mod hs hntc h3
  refine ⟨hnt3, ?_⟩
  intro hok
  simp only [UnitOk, ParamOk] at hok
  obtain ⟨hep, hokb, hok1, hok2, hok3, hok4⟩ := hok
  intro ml i buf
  generalize hN : (numberMark b0 r0).1 = number at *
  generalize hS0 : (numberMark b0 r0).2 = st0 at *
  generalize hC : (paramColon st2).1 = colon at *
  generalize hSc : (paramColon st2).2 = stc at *
  obtain ⟨cb, tb, pb1, pb2, pb3, pb4, pb5⟩ := hb2 hokb ml i (buf ++ "${".toList ++ (if number then ['#'] else []))
  obtain ⟨ti, pi1, pi2, pi3, pi4⟩ := hi2 hok1 hok2 ml i (buf ++ "${".toList ++ (if number then ['#'] else []) ++ cb :: tb)
  obtain ⟨cm, tm, pm1, pm2, pm3, pm4, pm5, pm6⟩ := hm3 hep hok3 hok4 ml i
    (buf ++ "${".toList ++ (if number then ['#'] else []) ++ cb :: tb ++ ti ++ (if colon then [':'] else []))
  have htm : isTailChar cm = true := by simp [isTailChar, pm3]
  have hcm : cm ≠ ':' ∧ cm ≠ '[' := by
    constructor <;> (rintro rfl; exact absurd pm3 (by decide))
  -- the text after the indices
  have hr2 : ∀ rr, ∃ d x, (if colon then [':'] else []) ++ (cm :: tm ++ rr) = d :: x ∧ isTailChar d = true ∧ d ≠ '[' := by
    intro rr
    cases colon with
    | true => exact ⟨':', _, rfl, by decide, by decide⟩
    | false => exact ⟨cm, _, rfl, htm, hcm.2⟩
  have hr1 : ∀ rr, ∃ d x, ti ++ ((if colon then [':'] else []) ++ (cm :: tm ++ rr)) = d :: x ∧ isTailChar d = true := by
    intro rr
    cases ti with
    | nil =>
      obtain ⟨d, x, h1, h2, _⟩ := hr2 rr
      exact ⟨d, x, h1, h2⟩
    | cons c ti =>
      have := (pi2 (by simp)).1
      simp at this
      subst this
      exact ⟨'[', _, rfl, by decide⟩
  have hafter : ∀ c r', st1.rest = c :: r' → c ≠ '[' → ti = [] ∧ (colon = true → c = ':') ∧
      (colon = false → cm = c ∧ stc.rest = c :: r') := by
    intro c r' hr hc
    have hti : ti = [] := by
      by_cases hti : ti = []
      · exact hti
      · have := (pi2 hti).2
        rw [hr] at this
        simp at this
        exact absurd this hc
    have h2 := (hi1 (by rw [hr]; simpa using hc)).2.2
    refine ⟨hti, fun hcol => ?_, fun hcol => ?_⟩
    · have := hc2 hcol
      rw [h2, hr] at this
      simpa using this
    · have := (hc1 hcol).1
      rw [this, h2, hr] at pm2
      simp at pm2
      exact ⟨pm2.symm, by rw [this, h2, hr]⟩
  refine ⟨'{', (if number then ['#'] else []) ++ (cb :: tb ++ (ti ++ ((if colon then [':'] else []) ++ cm :: tm))), ?_, .inl rfl, ?_⟩
  · simp only [printUnit]
    rw [printParam_eq, hm1, hm2, pb1, pi1, pm1]
    simp
  · intro b rr indq
    refine Ev.succ ?_
    obtain ⟨d1, x1, e1, f1⟩ := hr1 rr
    obtain ⟨d2, x2, e2, f2, g2⟩ := hr2 rr
    have q1 := pb5 ((if number then ['#'] else []).reverse ++ '{' :: '$' :: b) (d1 :: x1) (lineCont_id (isTailChar_bs f1)) (by simpa using f1)
    have q2 := pi4 ((cb :: tb).reverse ++ ((if number then ['#'] else []).reverse ++ '{' :: '$' :: b)) (d2 :: x2)
      (lineCont_id (isTailChar_bs f2)) (by simpa using g2)
    have q3 := pm6 ((if colon then [':'] else []).reverse ++ (ti.reverse ++ ((cb :: tb).reverse ++
      ((if number then ['#'] else []).reverse ++ '{' :: '$' :: b)))) rr
    refine q1.mono3 q2 q3 fun m a1 a2 a3 => ?_
    rw [special_eq]
    simp only [List.cons_append, special]
    rw [lineCont_id (by decide)]
    simp only [brace, Option.bind_eq_bind]
    -- the number sign
    have hnm : numberMark ('{' :: '$' :: b) ((if number then ['#'] else []) ++
        (cb :: (tb ++ (ti ++ ((if colon then [':'] else []) ++ cm :: tm)))) ++ rr) =
        (number, ⟨(if number then ['#'] else []).reverse ++ '{' :: '$' :: b, cb :: tb ++ (d1 :: x1)⟩) := by
      have htext : (cb :: (tb ++ (ti ++ ((if colon then [':'] else []) ++ cm :: tm)))) ++ rr = cb :: tb ++ (d1 :: x1) := by
        rw [← e1]
        simp
      rw [List.append_assoc, htext]
      rcases hnum with ⟨rfl, hh⟩ | ⟨rfl, hh⟩ | ⟨rfl, c, r', hh, hcn, hcases⟩ | ⟨rfl, c, r', hh, hcn, hcases⟩
      · rw [show (if false = true then ['#'] else []) = ([] : List Char) from rfl, List.nil_append]
        rw [List.cons_append, numberMark_other (lineCont_id pb2)]
        · rfl
        · intro hx
          simp at hx
          exact hh (by rw [(pb3 (.inr (.inr hx))).1, hx])
      · exfalso
        have h5 := hb1 '#' [] hh (by simp)
        have h6 := (hi1 (by rw [h5]; simp)).2.2
        cases colon with
        | true =>
          have := hc2 rfl
          rw [h6, h5] at this
          simp at this
        | false =>
          have := (hc1 rfl).1
          rw [this, h6, h5] at pm2
          simp at pm2
      · rw [show (if false = true then ['#'] else []) = ([] : List Char) from rfl, List.nil_append]
        by_cases hcb : cb = '#'
        · subst hcb
          have htb := (pb3 (.inr (.inr rfl))).2
          subst htb
          have hcb : c ≠ '[' := by
            rintro rfl
            rcases hcases with h | h
            · exact absurd h (by decide)
            · simp at h
          obtain ⟨g1, g2, g3⟩ := hafter c r' (hb1 '#' _ hh (by simp)) hcb
          subst g1
          rw [List.cons_append, List.nil_append, numberMark_sharp _ (lineCont_id (isTailChar_bs f1))]
          cases colon with
          | true =>
            simp at e1
            rw [← e1.1]
            rw [if_pos (by decide)]
            rfl
          | false =>
            obtain ⟨rfl, g4⟩ := g3 rfl
            simp at e1
            obtain ⟨rfl, rfl⟩ := e1
            rcases hcases with h | ⟨h, h7, h8⟩
            · rw [if_pos (by simp at h ⊢; simpa [or_assoc] using h)]
              rfl
            · have h9 : cm ∉ "}+=:/%".toList := by rcases h with rfl | rfl | rfl <;> decide
              obtain ⟨k1, k2, k3⟩ := pm4 h
              rw [g4] at k3
              simp only [List.tail_cons] at k3
              rw [h7] at k3
              rw [if_neg (by simp at h9 ⊢; simpa [and_assoc] using h9), if_pos (by simpa [or_assoc] using h), k1, if_neg]
              · rfl
              · intro hx
                cases tm with
                | nil => exact absurd rfl k2
                | cons y tm =>
                  simp at hx
                  subst hx
                  exact h8 (k3 rfl)
        · rw [List.cons_append, numberMark_other (lineCont_id pb2) (by simpa using hcb)]
          rfl
      · rw [show (if true = true then ['#'] else []) = ['#'] from rfl]
        simp only [List.cons_append, List.nil_append]
        rw [numberMark_sharp _ (lineCont_id pb2), if_neg (by simp at pb4 ⊢; simpa [and_assoc] using pb4)]
        by_cases hset : cb = '-' ∨ cb = '?' ∨ cb = '#'
        · obtain ⟨k1, rfl⟩ := pb3 hset
          rw [hh] at k1
          simp at k1
          subst k1
          obtain ⟨k2, k3⟩ := hcases hset
          have k4 := hb1 c r' hh hset
          cases r' with
          | nil => simp at k3
          | cons y r' =>
            simp at k3
            subst k3
            obtain ⟨g1, g2, g3⟩ := hafter '}' r' k4 (by decide)
            subst g1
            cases colon with
            | true => exact absurd (g2 rfl) (by decide)
            | false =>
              obtain ⟨rfl, g4⟩ := g3 rfl
              simp at e1
              obtain ⟨rfl, rfl⟩ := e1
              rw [if_pos (by simpa [or_assoc] using hset), List.nil_append, lineCont_id (by decide), if_pos (by simp)]
              rfl
        · rw [if_neg (by simpa [or_assoc] using hset)]
          rfl
    rw [hnm]
    simp only [a1, Option.bind_some]
    have htext2 : d1 :: x1 = ti ++ (d2 :: x2) := by rw [← e1, ← e2]
    rw [htext2, a2]
    simp only [Option.bind_some]
    have hpc : paramColon ⟨ti.reverse ++ ((cb :: tb).reverse ++ ((if number then ['#'] else []).reverse ++ '{' :: '$' :: b)), d2 :: x2⟩ =
        (colon, ⟨(if colon then [':'] else []).reverse ++ (ti.reverse ++ ((cb :: tb).reverse ++
          ((if number then ['#'] else []).reverse ++ '{' :: '$' :: b))), cm :: tm ++ rr⟩) := by
      rw [← e2]
      cases colon with
      | true => simp [paramColon, lineCont_id (isTailChar_bs htm)]
      | false => 
        rw [show (if false = true then [':'] else []) = ([] : List Char) from rfl, List.nil_append]
        rw [paramColon_other (by simp [hcm.1])]
        rfl
    rw [hpc, a3]
    simp

end Yash.Parser
