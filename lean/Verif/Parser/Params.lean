import Verif.Parser.Loops
/-!
# Parameter expansions are read back
-/
set_option autoImplicit false

namespace Yash.Parser

open Syntax Spec
open Expand (Locale)

variable {L : Locale}

/-! ## The parts of the text of a parameter expansion -/

/-- The indices. -/
def printIdx (L : Locale) (ml : Bool) (i : Nat) (start stop : Word) (b : List Char) : List Char :=
  match start with
  | [] => b
  | _ :: _ =>
    match stop with
    | [] => printWord L ml i start (b ++ ['[']) ++ [']']
    | _ :: _ => printWord L ml i stop (printWord L ml i start (b ++ ['[']) ++ [',']) ++ [']']

/-- The modifier and the closing brace. -/
def printMod (L : Locale) (ml : Bool) (i : Nat) (t : ParamType) (pattern subst : Word) (b : List Char) : List Char :=
  (match t.op with
    | .none => b
    | .match => printWord L ml i pattern (b ++ matchSign t)
    | .subst => printWord L ml i subst (printWord L ml i pattern (b ++ '/' :: replaceFlag t) ++ ['/'])
    | op => printWord L ml i subst (b ++ substChar op)) ++ ['}']

theorem printParam_eq (ml : Bool) (i : Nat) (t : ParamType) (base : ParamBase) (start stop pattern subst : Word) (b : List Char) :
    printParam L ml i (.mk t base start stop pattern subst) b =
      printMod L ml i t pattern subst
        (printIdx L ml i start stop (printBase L ml i base (b ++ "${".toList ++ (if t.number then ['#'] else []))) ++
          (if t.colon then [':'] else [])) := by
  cases start <;> cases stop <;> simp only [printParam, printIdx, printMod] <;> cases t.op <;> rfl

/-! ## Words in a parameter expansion -/

theorem parse_word {R : Rec} (hs : GoodSpecial L R.special) {delim : Char → Bool} {b r : List Char} {w : Word} {st : Src}
    (hnt : NT r) (h : parseWord R.special delim ⟨b, r⟩ = some (w, st)) : WordResult L delim false [] b r w st :=
  word_loop hs delim _ false [] b r w st hnt (by simp) h

theorem Follow.cons {delim : Char → Bool} {w : Word} {d : Char} {r : List Char} (hd : delim d = true) (hb : d ≠ '\\')
    (hp : startsParam d = false) : Follow delim w (d :: r) :=
  ⟨lineCont_id hb, fun e he => by simp at he; subst he; exact ⟨hd, fun _ => hp⟩⟩

theorem param_subst {R : Rec} (hs : GoodSpecial L R.special) {b r : List Char} {w : Word} {st : Src}
    (hnt : NT r) (h : paramSubst R ⟨b, r⟩ = some (w, st)) : NT st.rest ∧ (WordOk L w → ∀ ml i buf, ∃ s,
      printWord L ml i w buf = buf ++ s ∧ (s ++ ['}']).head? = (lineCont r).head? ∧
      (∀ rr, lineCont (s ++ '}' :: rr) = s ++ '}' :: rr) ∧
      ∀ b rr, Ev fun m => paramSubst (parser L m) ⟨b, s ++ '}' :: rr⟩ = some (w, ⟨'}' :: (s.reverse ++ b), rr⟩)) := by
  simp only [paramSubst, Option.bind_eq_bind, Option.bind_eq_some_iff] at h
  obtain ⟨⟨w1, st1⟩, h1, h⟩ := h
  have hw := parse_word hs hnt h1
  simp only at h
  split at h
  · rename_i b1 r1
    cases h
    refine ⟨hw.nt.tail, ?_⟩
    intro hok ml i buf
    obtain ⟨s, h2, h3, h4, h5, h6⟩ := (hw.rt hok).parse ml i buf
    have hf : ∀ rr, Follow isClosingBrace w ('}' :: rr) := fun rr => Follow.cons rfl (by decide) (by decide)
    refine ⟨s, h2, ?_, fun rr => h5 _ (hf rr), ?_⟩
    · cases s with
      | nil =>
        have := (hw.nil (h3 rfl)).2
        simp at this
        simp [← this]
      | cons c s => simpa using h4 (by simp)
    · intro b rr
      refine (h6 b _ (hf rr)).mono fun m hm => ?_
      simp only [paramSubst, hm]
      rfl
  · cases h

theorem paramSubst_nil (m : Nat) (b rr : List Char) :
    paramSubst (parser L m) ⟨b, '}' :: rr⟩ = some ([], ⟨'}' :: b, rr⟩) := by
  have : parseWord (parser L m).special isClosingBrace ⟨b, '}' :: rr⟩ = some ([], ⟨b, '}' :: rr⟩) := by
    simp only [parseWord, parseWordLoop]
    rw [lineCont_id (by decide)]
    simp [isClosingBrace, stringUnit]
  simp only [paramSubst, this]
  rfl

theorem param_replace {R : Rec} (hs : GoodSpecial L R.special) {b r : List Char} {p w : Word} {st : Src}
    (hnt : NT r) (h : paramReplace R ⟨b, r⟩ = some (p, w, st)) : NT st.rest ∧ (WordOk L p → WordOk L w → ∀ ml i buf, ∃ s1 s2,
      printWord L ml i p buf = buf ++ s1 ∧ printWord L ml i w (buf ++ s1 ++ ['/']) = buf ++ s1 ++ ['/'] ++ s2 ∧
      (s1 = [] → p = []) ∧ (s1 ≠ [] → s1.head? = (lineCont r).head?) ∧
      (∀ rr, lineCont (s1 ++ '/' :: rr) = s1 ++ '/' :: rr) ∧
      ∀ b rr, Ev fun m => paramReplace (parser L m) ⟨b, s1 ++ '/' :: (s2 ++ '}' :: rr)⟩ =
        some (p, w, ⟨'}' :: (s2.reverse ++ '/' :: (s1.reverse ++ b)), rr⟩)) := by
  simp only [paramReplace, Option.bind_eq_bind, Option.bind_eq_some_iff] at h
  obtain ⟨⟨p1, st1⟩, h1, h⟩ := h
  have hw := parse_word hs hnt h1
  have hf : ∀ rr, Follow isSlashOrClosingBrace p1 ('/' :: rr) := fun rr => Follow.cons rfl (by decide) (by decide)
  simp only at h
  split at h
  · rename_i b1 r1
    simp only [Option.bind_eq_some_iff] at h
    obtain ⟨⟨w1, st2⟩, h2, h⟩ := h
    cases h
    obtain ⟨h3, h4⟩ := param_subst hs hw.nt.tail h2
    refine ⟨h3, ?_⟩
    intro hok1 hok2 ml i buf
    obtain ⟨s1, h5, h6, h7, h8, h9⟩ := (hw.rt hok1).parse ml i buf
    obtain ⟨s2, h10, h11, h12, h13⟩ := h4 hok2 ml i (buf ++ s1 ++ ['/'])
    refine ⟨s1, s2, h5, h10, h6, h7, fun rr => h8 _ (hf rr), ?_⟩
    intro b rr
    refine (h9 b _ (hf (s2 ++ '}' :: rr))).mono2 (h13 ('/' :: (s1.reverse ++ b)) rr) fun m e1 e2 => ?_
    simp only [paramReplace, e1, Option.bind_eq_bind, Option.bind_some]
    simp only [e2, Option.bind_some]
  · rename_i b1 r1
    cases h
    refine ⟨hw.nt.tail, ?_⟩
    intro hok1 hok2 ml i buf
    obtain ⟨s1, h5, h6, h7, h8, h9⟩ := (hw.rt hok1).parse ml i buf
    refine ⟨s1, [], h5, by simp [printWord], h6, h7, fun rr => h8 _ (hf rr), ?_⟩
    intro b rr
    refine (h9 b _ (hf ('}' :: rr))).mono fun m e1 => ?_
    simp only [List.nil_append]
    simp only [paramReplace, e1, Option.bind_eq_bind, Option.bind_some]
    simp only [paramSubst_nil, Option.bind_some]
    simp
  · cases h

/-! ## The modifier -/

/-- The characters that start a modifier, or the closing brace. -/
def isModChar (c : Char) : Bool := c == '}' || c == '-' || c == '+' || c == '=' || c == '?' || c == '#' || c == '%' || c == '/'

theorem param_mod {R : Rec} (hs : GoodSpecial L R.special) {number colon : Bool} {b r : List Char} {t : ParamType} {pattern subst : Word}
    {st : Src} (hnt : NT r) (h : paramMod R number colon ⟨b, r⟩ = some (t, pattern, subst, st)) :
    NT st.rest ∧ t.number = number ∧ t.colon = colon ∧
    (¬EmptyPattern t pattern → WordOk L pattern → WordOk L subst → ∀ ml i buf, ∃ c s,
      printMod L ml i t pattern subst buf = buf ++ c :: s ∧ r.head? = some c ∧ isModChar c = true ∧
      ((c = '-' ∨ c = '?' ∨ c = '#') → (∀ rr, lineCont (s ++ rr) = s ++ rr) ∧ s ≠ [] ∧
        (s.head? = some '}' → (lineCont r.tail).head? = some '}')) ∧
      (c = '}' → s = []) ∧
      ∀ b rr, Ev fun m => paramMod (parser L m) number colon ⟨b, c :: s ++ rr⟩ =
        some (t, pattern, subst, ⟨(c :: s).reverse ++ b, rr⟩)) := by
  cases r with
  | nil => simp [paramMod] at h
  | cons c r =>
    simp only [paramMod] at h
    by_cases hc : c = '}'
    · subst hc
      rw [if_pos (by simp)] at h
      split at h
      · cases h
      · rename_i hcol
        simp at hcol
        subst hcol
        cases h
        refine ⟨hnt.tail, rfl, rfl, fun _ _ _ ml i buf => ⟨'}', [], by simp [printMod], rfl, rfl, by simp, fun _ => rfl, ?_⟩⟩
        intro b rr
        exact .of fun m => by simp [paramMod]
    rw [if_neg (by simp [hc])] at h
    cases number with
    | true => simp at h
    | false =>
    rw [if_neg (by simp)] at h
    split at h
    · rename_i op hop
      simp only [Option.bind_eq_bind, Option.bind_eq_some_iff] at h
      obtain ⟨⟨w, st1⟩, h1, h⟩ := h
      cases h
      obtain ⟨h2, h3⟩ := param_subst hs hnt.tail h1
      refine ⟨h2, rfl, rfl, ?_⟩
      intro _ _ hok ml i buf
      obtain ⟨s, h4, h5, h6, h7⟩ := h3 hok ml i (buf ++ [c])
      have hop' : op ≠ .none ∧ op ≠ .match ∧ op ≠ .subst ∧ substChar op = [c] ∧ isModChar c = true := by
        unfold substOp at hop
        split at hop
        · rename_i hcc; simp at hcc; subst hcc; cases hop; decide
        split at hop
        · rename_i hcc; simp at hcc; subst hcc; cases hop; decide
        split at hop
        · rename_i hcc; simp at hcc; subst hcc; cases hop; decide
        split at hop
        · rename_i hcc; simp at hcc; subst hcc; cases hop; decide
        · cases hop
      refine ⟨c, s ++ ['}'], ?_, rfl, hop'.2.2.2.2, ?_, fun h => absurd h hc, ?_⟩
      · have : printMod L ml i { op := op, colon := colon } [] w buf =
            printWord L ml i w (buf ++ substChar op) ++ ['}'] := by
          obtain ⟨a1, a2, a3, a4, a5⟩ := hop'
          cases op <;> first | rfl | exact absurd rfl a1 | exact absurd rfl a2 | exact absurd rfl a3
        rw [this, hop'.2.2.2.1, h4]
        simp
      · intro _
        refine ⟨fun rr => by simpa using h6 rr, by simp, fun h => ?_⟩
        rw [h5] at h
        exact h
      · intro b rr
        refine (h7 (c :: b) rr).mono fun m hm => ?_
        simp only [List.cons_append, paramMod]
        rw [if_neg (by simp [hc]), if_neg (by simp), hop]
        simp [hm]
    · rename_i hop
      by_cases hm : (c == '#' || c == '%') = true
      · rw [if_pos hm] at h
        cases colon with
        | true => simp at h
        | false =>
        rw [if_neg (by simp)] at h
        have hcb : c ≠ '\\' := by rintro rfl; simp at hm
        by_cases hd : ((lineCont r).head? == some c) = true
        · rw [if_pos hd] at h
          simp only [Option.bind_eq_bind, Option.bind_eq_some_iff] at h
          obtain ⟨⟨p, st1⟩, h1, h⟩ := h
          cases h
          have hr : lineCont r = c :: (lineCont r).tail := by
            cases hl : lineCont r with
            | nil => simp [hl] at hd
            | cons x y => simp [hl] at hd; simp [hd]
          have hnt2 := hnt.tail.lineCont
          rw [hr] at hnt2
          obtain ⟨h2, h3⟩ := param_subst hs hnt2.tail h1
          refine ⟨h2, rfl, rfl, ?_⟩
          intro _ hok _ ml i buf
          obtain ⟨s, h4, h5, h6, h7⟩ := h3 hok ml i (buf ++ [c, c])
          refine ⟨c, c :: s ++ ['}'], ?_, rfl, ?_, ?_, fun h => absurd h hc, ?_⟩
          · simp only [printMod, matchSign]
            have : ((if (c == '#') = true then ['#'] else ['%']) ++
                if True then (if (c == '#') = true then ['#'] else ['%']) else []) = [c, c] := by
              simp at hm
              rcases hm with rfl | rfl <;> decide
            rw [this, h4]
            simp
          · simp at hm
            rcases hm with rfl | rfl <;> decide
          · intro _
            refine ⟨fun rr => lineCont_id hcb, by simp, ?_⟩
            intro h
            simp at h
            exact absurd h hc
          · intro b rr
            refine (h7 (c :: c :: b) rr).mono fun m e => ?_
            simp only [List.cons_append, paramMod]
            rw [if_neg (by simp [hc]), if_neg (by simp), hop]
            simp only
            rw [if_pos hm, if_neg (by simp), lineCont_id hcb, if_pos (by simp)]
            simp [e]
        · rw [if_neg hd] at h
          simp only [Option.bind_eq_bind, Option.bind_eq_some_iff] at h
          obtain ⟨⟨p, st1⟩, h1, h⟩ := h
          cases h
          obtain ⟨h2, h3⟩ := param_subst hs hnt.tail.lineCont h1
          refine ⟨h2, rfl, rfl, ?_⟩
          intro _ hok _ ml i buf
          obtain ⟨s, h4, h5, h6, h7⟩ := h3 hok ml i (buf ++ [c])
          rw [lineCont_idem] at h5
          refine ⟨c, s ++ ['}'], ?_, rfl, ?_, ?_, fun h => absurd h hc, ?_⟩
          · simp only [printMod, matchSign]
            have : ((if (c == '#') = true then ['#'] else ['%']) ++
                if false = true then (if (c == '#') = true then ['#'] else ['%']) else []) = [c] := by
              simp at hm
              rcases hm with rfl | rfl <;> decide
            rw [this, h4]
            simp
          · simp at hm
            rcases hm with rfl | rfl <;> decide
          · intro _
            refine ⟨fun rr => by simpa using h6 rr, by simp, fun h => ?_⟩
            rw [h5] at h
            exact h
          · intro b rr
            refine (h7 (c :: b) rr).mono fun m e => ?_
            simp only [List.cons_append, paramMod]
            rw [if_neg (by simp [hc]), if_neg (by simp), hop]
            simp only
            have hh : ¬((lineCont (s ++ ['}'] ++ rr)).head? == some c) = true := by
              rw [List.append_assoc, List.singleton_append, h6 rr]
              rw [← h5] at hd
              cases s with
              | nil => simpa using hd
              | cons x y => simpa using hd
            rw [if_pos hm, if_neg (by simp), if_neg hh]
            rw [List.append_assoc, List.singleton_append, h6 rr]
            simp [e]
      · rw [if_neg hm] at h
        by_cases hsl : c = '/'
        · subst hsl
          rw [if_pos (by simp)] at h
          cases colon with
          | true =>
            rw [if_pos (by simp)] at h
            simp only [Option.bind_eq_bind, Option.bind_eq_some_iff] at h
            obtain ⟨⟨p, w, st1⟩, h1, h⟩ := h
            cases h
            obtain ⟨h2, h3⟩ := param_replace hs hnt.tail.lineCont h1
            refine ⟨h2, rfl, rfl, ?_⟩
            intro _ hok1 hok2 ml i buf
            obtain ⟨s1, s2, h4, h5, h6, h7, h8, h9⟩ := h3 hok1 hok2 ml i (buf ++ ['/'])
            refine ⟨'/', s1 ++ '/' :: (s2 ++ ['}']), ?_, rfl, rfl, by simp, by simp, ?_⟩
            · simp only [printMod, replaceFlag]
              rw [if_pos trivial, h4, h5]
              simp
            · intro b rr
              refine (h9 ('/' :: b) rr).mono fun m e => ?_
              simp only [List.cons_append, paramMod]
              rw [if_neg (by simp), if_neg (by simp), hop]
              simp only
              rw [if_neg (by simp), if_pos (by simp), if_pos trivial, List.append_assoc, List.cons_append, h8]
              simp [e]
          | false =>
            rw [if_neg (by simp)] at h
            have hnt2 := hnt.tail.lineCont
            have hn2 := lineCont_idem r
            split at h
            · cases h
            rename_i d r1 hr1
            rw [hr1] at hnt2 hn2
            -- one of the flags
            have flag : ∀ (f : List Char) (t : ParamType), ParamType.op t = .subst → ParamType.number t = false → t.colon = false →
                replaceFlag t = f → ∀ (b0 r0 : List Char) p w st, NT r0 → paramReplace R ⟨b0, r0⟩ = some (p, w, st) →
                (∀ s1, (s1 = [] → p = []) → (s1 ≠ [] → s1.head? = (lineCont r0).head?) →
                  (∀ rr, lineCont (s1 ++ '/' :: rr) = s1 ++ '/' :: rr) → ¬EmptyPattern t p → ∀ R b rr res,
                  paramReplace R ⟨f.reverse ++ '/' :: b, s1 ++ '/' :: rr⟩ = some res →
                  paramMod R false false ⟨b, '/' :: f ++ (s1 ++ '/' :: rr)⟩ = some (t, res)) →
                NT st.rest ∧ t.number = false ∧ t.colon = false ∧
                (¬EmptyPattern t p → WordOk L p → WordOk L w → ∀ ml i buf, ∃ c s,
                  printMod L ml i t p w buf = buf ++ c :: s ∧ ('/' :: r).head? = some c ∧ isModChar c = true ∧
                  ((c = '-' ∨ c = '?' ∨ c = '#') → (∀ rr, lineCont (s ++ rr) = s ++ rr) ∧ s ≠ [] ∧
                    (s.head? = some '}' → (lineCont ('/' :: r).tail).head? = some '}')) ∧
                  (c = '}' → s = []) ∧
                  ∀ b rr, Ev fun m => paramMod (parser L m) false false ⟨b, c :: s ++ rr⟩ =
                    some (t, p, w, ⟨(c :: s).reverse ++ b, rr⟩)) := by
              intro f t ht1 ht2 ht3 hf b0 r0 p w st hnt0 h1 hread
              obtain ⟨h2, h3⟩ := param_replace hs hnt0 h1
              refine ⟨h2, ht2, ht3, ?_⟩
              intro hep hok1 hok2 ml i buf
              obtain ⟨s1, s2, h4, h5, h6, h7, h8, h9⟩ := h3 hok1 hok2 ml i (buf ++ '/' :: f)
              refine ⟨'/', f ++ (s1 ++ '/' :: (s2 ++ ['}'])), ?_, rfl, rfl, by simp, by simp, ?_⟩
              · simp only [printMod, ht1, hf]
                rw [h4, h5]
                simp
              · intro b rr
                refine (h9 (f.reverse ++ '/' :: b) rr).mono fun m e => ?_
                have := hread s1 h6 h7 h8 hep (parser L m) b (s2 ++ '}' :: rr) _ e
                simpa using this
            by_cases hd1 : d = '/'
            · subst hd1
              rw [if_pos (by simp)] at h
              simp only [Option.bind_eq_bind, Option.bind_eq_some_iff] at h
              obtain ⟨⟨p, w, st1⟩, h1, h⟩ := h
              cases h
              refine flag ['/'] _ rfl rfl rfl rfl _ _ _ _ _ hnt2.tail h1 ?_
              intro s1 _ _ _ _ R b rr res e
              simp only [List.cons_append, List.nil_append, paramMod]
              rw [if_neg (by simp), if_neg (by simp), hop]
              simp only
              rw [if_neg (by simp), if_pos (by simp), if_neg (by simp), lineCont_id (by decide)]
              simp only
              rw [if_pos (by simp)]
              simp at e
              simp [e]
            rw [if_neg (by simp [hd1])] at h
            by_cases hd2 : d = '#'
            · subst hd2
              rw [if_pos (by simp)] at h
              simp only [Option.bind_eq_bind, Option.bind_eq_some_iff] at h
              obtain ⟨⟨p, w, st1⟩, h1, h⟩ := h
              cases h
              refine flag ['#'] _ rfl rfl rfl rfl _ _ _ _ _ hnt2.tail h1 ?_
              intro s1 _ _ _ _ R b rr res e
              simp only [List.cons_append, List.nil_append, paramMod]
              rw [if_neg (by simp), if_neg (by simp), hop]
              simp only
              rw [if_neg (by simp), if_pos (by simp), if_neg (by simp), lineCont_id (by decide)]
              simp only
              rw [if_neg (by simp), if_pos (by simp)]
              simp at e
              simp [e]
            rw [if_neg (by simp [hd2])] at h
            by_cases hd3 : d = '%'
            · subst hd3
              rw [if_pos (by simp)] at h
              simp only [Option.bind_eq_bind, Option.bind_eq_some_iff] at h
              obtain ⟨⟨p, w, st1⟩, h1, h⟩ := h
              cases h
              refine flag ['%'] _ rfl rfl rfl rfl _ _ _ _ _ hnt2.tail h1 ?_
              intro s1 _ _ _ _ R b rr res e
              simp only [List.cons_append, List.nil_append, paramMod]
              rw [if_neg (by simp), if_neg (by simp), hop]
              simp only
              rw [if_neg (by simp), if_pos (by simp), if_neg (by simp), lineCont_id (by decide)]
              simp only
              rw [if_neg (by simp), if_neg (by simp), if_pos (by simp)]
              simp at e
              simp [e]
            rw [if_neg (by simp [hd3])] at h
            simp only [Option.bind_eq_bind, Option.bind_eq_some_iff] at h
            obtain ⟨⟨p, w, st1⟩, h1, h⟩ := h
            cases h
            refine flag [] _ rfl rfl rfl rfl _ _ _ _ _ hnt2 h1 ?_
            intro s1 e1 e2 e3 hep R b rr res e
            cases s1 with
            | nil => exact absurd ⟨rfl, rfl, rfl, rfl, rfl, e1 rfl⟩ hep
            | cons x s1 =>
              have e2 := e2 (by simp)
              rw [hn2] at e2
              simp at e2
              subst e2
              simp only [List.cons_append, List.nil_append, paramMod]
              rw [if_neg (by simp), if_neg (by simp), hop]
              simp only
              have e3 := e3 rr
              simp only [List.cons_append] at e3
              rw [if_neg (by simp), if_pos (by simp), if_neg (by simp), e3]
              simp only
              rw [if_neg (by simp [hd1]), if_neg (by simp [hd2]), if_neg (by simp [hd3])]
              simp at e
              simp [e]
        · rw [if_neg (by simp [hsl])] at h
          cases h

end Yash.Parser
