import Verif.Restore.Literal
/-!
# Lines of words without expansions are read as they were written
-/
set_option autoImplicit false

namespace Yash.Restore

open Yash.Expand
open Yash.Expand.Spec (Seg Writes)
open Yash.Syntax Yash.Parser Yash.Parser.Spec

variable {L : Locale}

/-- A list with one command. -/
def oneCommand (c : Command) : List AndOr := [.mk [.mk [c] false false] false]

/-- A command that is read back, on a line of its own. -/
theorem command_line (hL : LocaleOk L) {c : Command} {text : List Char} (hc : CmdRT L c) (hp : printCommand L false 0 c [] = text ++ [' '])
    (rest : List Char) : parseLine L (text ++ '\n' :: rest) = some (oneCommand c, rest) := by
  have hpp : printPipelines L false 0 true [.mk [c] false false] [] = text ++ [' '] := by
    simp only [printPipelines, printPipeline, printCommands, if_true, printIndent_zero]
    simpa using hp
  obtain ⟨k, s, h1, h2, h3⟩ := and_read hL (ps := [.mk [c] false false]) (by simp [PipeRT, hc]) ⟨_, _, _, rfl⟩ false 0 []
  rw [hpp] at h1
  have htext : text = List.replicate k ' ' ++ s := by
    have := congrArg List.dropLast h1
    simpa using this
  subst htext
  have ha := At.newline hL (s.reverse ++ List.replicate k ' ') rest
  obtain ⟨tk0, ha0, hst, hev⟩ := h3 (List.replicate k ' ') _ _ (Sep.newline rest) (.of_op rfl (.inl rfl)) ha
  have ha1 := (At.spaces hL k (ha0.cast (by simp) rfl) : At L [] _ tk0)
  obtain ⟨m1, hm1⟩ := ha1
  obtain ⟨m2, hm2⟩ := hev
  have hend : parseLineN L (m1 + m2 + ((List.replicate k ' ' ++ s ++ '\n' :: rest).length + 2)) (List.replicate k ' ' ++ s ++ '\n' :: rest) =
      some (oneCommand c, rest) := by
    generalize hn : m1 + m2 + (List.replicate k ' ' ++ s ++ '\n' :: rest).length = n
    have e0 : m1 + m2 + ((List.replicate k ' ' ++ s ++ '\n' :: rest).length + 2) = n + 2 := by omega
    rw [e0]
    have e1 : nextToken L (parser L (n + 2)).special ⟨[], List.replicate k ' ' ++ s ++ '\n' :: rest⟩ = some tk0 := by
      have := hm1 (n + 2) (by omega)
      simpa using this
    have e2 := hm2 (n + 2) (by omega)
    simp only at e2
    simp only [parseLineN, e1, Option.bind_eq_bind, Option.bind_some]
    rw [lineLoop, if_neg (by simp [hst.newline, hst.eoi]), if_neg (by simp)]
    simp only [andOr, parser_fuel, e2]
    simp only [Option.bind_eq_bind, Option.bind_some]
    have e3 : ∀ tk : Token, tk.type = .newline → separator L (parser L (n + 2)) tk = some (true, tk) := by
      intro tk h
      unfold separator
      rw [if_neg (by simp [h])]
    rw [e3 _ rfl]
    simp only [Option.bind_some]
    rw [lineLoop, if_pos (by simp [opToken])]
    rfl
  rwa [parse_ends hL.newline _ _ (by omega)] at hend

theorem literal_head (hL : L.Ok) {text value : List Char} (h : Literal L text value) :
    ∃ c s, text = c :: s ∧ isTokenDelimiter L c = false ∧ c ≠ '#' ∧ ∀ r, lineCont (c :: s ++ r) = c :: s ++ r := by
  obtain ⟨gs, ts, h1, h2, h3, h4, h5, rfl, h7⟩ := h
  cases gs with
  | nil => exact absurd rfl h1
  | cons g gs =>
    have hg := (h2 g (by simp)).1
    cases g with
    | chr c =>
      obtain ⟨p1, p2⟩ := hg
      simp at p1
      exact ⟨c, _, rfl, by simp [isTokenDelimiter, p1, p2], fun e => h4 gs (by rw [e]), fun r => lineCont_id (by simp [p1])⟩
    | sq a => exact ⟨'\'', _, rfl, by simp [isTokenDelimiter, hL.punct_blank '\'' (by decide)], by decide, fun r => lineCont_id (by decide)⟩
    | bs c => exact ⟨'\\', _, rfl, by simp [isTokenDelimiter, hL.punct_blank '\\' (by decide)], by decide, fun r => lineCont_bs_id hg⟩
    | dq ps => exact ⟨'"', _, rfl, by simp [isTokenDelimiter, hL.punct_blank '"' (by decide)], by decide, fun r => lineCont_id (by decide)⟩

/-- It is a word that is read back. -/
theorem Literal.item (hL : L.Ok) {text value : List Char} (h : Literal L text value) : ItemWord L [.str text] := by
  refine ⟨?_, by simp, by simpa using h.ne⟩
  intro ml i buf
  obtain ⟨c, s, rfl, h2, h3, h4⟩ := literal_head hL h
  refine ⟨c, s, rfl, h2, h3, fun r _ => h4 r, fun b r hr => ?_⟩
  refine ⟨0, fun m _ => ?_⟩
  obtain ⟨gs, ts, g1, g2, g3, g4, g5, g6, g7⟩ := h
  have := parse_segs hL (parser L m).special r (fun d r' hd => (hr.2 d (by simp [hd])).1) gs (fun g hg => (g2 g hg).1)
    ((c :: s ++ r).length + 1) [] b (by rw [g6]; simp only [List.length_append]; omega)
  rw [g6] at this
  simp only [parseWord]
  rw [this]
  simp [stringUnit]

/-- The last character is not a space. -/
theorem Literal.last (hsp : L.blank ' ' = true) {text value : List Char} (h : Literal L text value) : ¬EndsWithSpace [.str text] := by
  rintro ⟨w', s, hw⟩
  have hnil : w' = [] := by
    cases w' with
    | nil => rfl
    | cons u w' => simp at hw
  subst hnil
  simp at hw
  obtain ⟨gs, ts, h1, h2, h3, h4, h5, h6, h7⟩ := h
  obtain ⟨gs, g, rfl⟩ : ∃ gs' g, gs = gs' ++ [g] := ⟨gs.dropLast, gs.getLast h1, (List.dropLast_concat_getLast h1).symm⟩
  rw [hw, List.map_append, List.flatten_append] at h6
  have hlast := congrArg List.getLast? h6
  have hg := (h2 g (by simp)).1
  have hlit : g.literal ≠ none := by
    intro hn
    have : g.literal ∈ ts.map some := by rw [← h5]; simp
    rw [hn] at this
    simp at this
  cases g with
  | chr c =>
    simp [segText] at hlast
    rw [hlast, PlainSeg, hsp] at hg
    exact absurd hg.2 (by simp)
  | sq a =>
    have : ('\'' :: (a ++ ['\''])).getLast? = some '\'' := by rw [← List.cons_append, List.getLast?_append]; rfl
    simp [segText] at hlast
    rw [this] at hlast
    simp at hlast
  | bs c =>
    simp [segText] at hlast
    exact (h2 (.bs c) (by simp)).2.2 (by rw [hlast])
  | dq ps => simp [Spec.Seg.literal] at hlit

/-- The words as they are printed. -/
theorem printWords_texts (ts : List (List Char)) (hne : ts ≠ []) (b : List Char) :
    printWords L false 0 (ts.map fun t => [.str t]) b ++ ['\n'] = b ++ (lineOf ts).dropLast ++ [' ', '\n'] := by
  induction ts generalizing b with
  | nil => exact absurd rfl hne
  | cons t ts ih =>
    cases ts with
    | nil => simp [printWords, printWord, printUnit, lineOf]
    | cons t' ts =>
      have h := ih (by simp) (b ++ t ++ [' '])
      have hl : lineOf (t' :: ts) ≠ [] := by cases ts <;> simp [lineOf]
      rw [List.map_cons, printWords, printWord, printUnit, printWord]
      rw [h]
      simp only [lineOf]
      rw [List.dropLast_append_of_ne_nil (by simp), List.dropLast_cons_of_ne_nil hl]
      simp

theorem lineOf_last (ts : List (List Char)) : lineOf ts = (lineOf ts).dropLast ++ ['\n'] := by
  induction ts with
  | nil => rfl
  | cons t ts ih =>
    cases ts with
    | nil => simp [lineOf]
    | cons t' ts =>
      have hl : lineOf (t' :: ts) ≠ [] := by cases ts <;> simp [lineOf]
      simp only [lineOf]
      rw [List.dropLast_append_of_ne_nil (by simp), List.dropLast_cons_of_ne_nil hl]
      simp only [List.append_assoc, List.cons_append]
      rw [← ih]

/-- A line of words, of which the first is neither a keyword nor an assignment, is a simple command. -/
theorem words_line (hL : LocaleOk L) (ws : List (List Char × List Char)) (h : ∀ w ∈ ws, Literal L w.1 w.2) {t : List Char}
    (ht : (ws.map (·.1)).head? = some t) (hk : t ∉ keywords) (hs : splitAssign L [.str t] = none) (rest : List Char) :
    parseLine L (lineOf (ws.map (·.1)) ++ rest) = some (oneCommand (.simple [] [] (ws.map fun w => [.str w.1])), rest) := by
  obtain ⟨w, ws, rfl⟩ : ∃ w ws', ws = w :: ws' := by
    cases ws with
    | nil => simp at ht
    | cons w ws => exact ⟨w, ws, rfl⟩
  simp at ht
  subst ht
  have hc : CmdRT L (.simple [] [] ((w :: ws).map fun w => [.str w.1])) := by
    refine cmd_simple hL (by simp) ?_ ?_ ?_ (by simp) ?_ (by simp)
    · intro x hx
      obtain ⟨y, hy, rfl⟩ := List.mem_map.1 hx
      exact (h y hy).item hL.ok
    · intro x hx
      obtain ⟨y, hy, rfl⟩ := List.mem_map.1 hx
      exact (h y hy).last hL.space
    · intro x hx
      simp at hx
      rw [← hx]
      exact hs
    · intro _ x hx
      simp at hx
      rw [← hx]
      rintro ⟨s, h1, h2⟩
      simp at h2
      exact hk (h2 ▸ h1)
  have hp : printCommand L false 0 (.simple [] [] ((w :: ws).map fun w => [.str w.1])) [] = (lineOf ((w :: ws).map (·.1))).dropLast ++ [' '] := by
    rw [printCommand_simple]
    · simp only [printRedirs, printAssigns]
      have h1 := printWords_texts (L := L) ((w :: ws).map (·.1)) (by simp) []
      rw [List.map_map] at h1
      have h2 := congrArg List.dropLast h1
      rw [show [' ', '\n'] = [' '] ++ ['\n'] from rfl, ← List.append_assoc, List.dropLast_concat, List.dropLast_concat] at h2
      exact h2
    · intro _ x hx
      simp at hx
      rw [← hx]
      show (reservedWord w.1 != .word) = false
      rw [reservedWord_word hk]
      rfl
  have := command_line hL hc hp rest
  rw [lineOf_last, List.append_assoc]
  exact this

/-! ## Assignments -/

/-- A name as it can be written before the `=` of an assignment. -/
def NameWord (L : Locale) (n : List Char) : Prop :=
  ∃ c s, n = c :: s ∧ isDigitChar c = false ∧ ∀ d ∈ n, d = '_' ∨ L.alnum d = true

theorem dropWhile_nil_iff {p : Char → Bool} (l : List Char) : l.dropWhile p = [] ↔ ∀ d ∈ l, p d = true := by
  induction l with
  | nil => simp
  | cons a l ih =>
    rw [List.dropWhile_cons]
    by_cases h : p a = true
    · simp [h, ih]
    · simp [h]

theorem NameWord.isNameBy {n : List Char} : isNameBy (isNameChar L) n = true ↔ NameWord L n := by
  cases n with
  | nil => simp [Syntax.isNameBy, NameWord]
  | cons c s =>
    by_cases hd : isDigitChar c = true
    · simp [Syntax.isNameBy, skipName, hd, NameWord]
    · simp only [Bool.not_eq_true] at hd
      simp only [Syntax.isNameBy, skipName, hd, NameWord, Bool.false_eq_true, if_false, List.isEmpty_cons, Bool.not_false, Bool.true_and,
        List.isEmpty_iff]
      rw [dropWhile_nil_iff]
      constructor
      · intro h
        exact ⟨c, s, rfl, hd, fun d hm => by simpa [isNameChar] using h d hm⟩
      · rintro ⟨_, _, _, _, h⟩ d hm
        simpa [isNameChar] using h d hm

theorem NameWord.split {n : List Char} (hL : L.Ok) (h : NameWord L n) (v : List Char) :
    splitAssign L [.str (n ++ '=' :: v)] = some (n, if v.isEmpty then [] else [.str v]) := by
  obtain ⟨c, s, rfl, h2, h3⟩ := h
  have heq : isNameChar L '=' = false := by simp [isNameChar, hL.alnum_special '=' (by decide)]
  have hall : ∀ d ∈ c :: s, isNameChar L d = true := fun d hd => by simpa [isNameChar] using h3 d hd
  have hsk : skipName (isNameChar L) (c :: s ++ '=' :: v) = (c :: s, '=' :: v) := by
    rw [List.cons_append, skipName, if_neg (by simp [h2])]
    rw [← List.cons_append, List.takeWhile_append_of_pos hall, List.dropWhile_append_of_pos hall]
    simp [List.takeWhile_cons, List.dropWhile_cons, heq]
  simp only [splitAssign, hsk]

theorem NameWord.literal {n : List Char} (hL : L.Ok) (h : NameWord L n) : Literal L n n := by
  obtain ⟨c, s, rfl, h2, h3⟩ := h
  refine literal_chars (by simp) fun d hd => ?_
  have hsafe : isSafe L d = true := by
    rcases h3 d hd with h | h <;> simp [isSafe, h]
  obtain ⟨h4, h5⟩ := safe_char hL hsafe
  simp at h4
  exact ⟨by simp [h4], h5⟩

theorem literal_eq (hL : L.Ok) : Literal L ['='] ['='] :=
  literal_chars (by simp) (by
    intro c hc
    simp at hc
    subst hc
    exact ⟨by decide, hL.punct_blank _ (by decide)⟩)

theorem NameWord.not_keyword {n : List Char} (v : List Char) : n ++ '=' :: v ∉ keywords := by
  intro h
  have : ∀ k ∈ keywords, '=' ∉ k := by decide
  exact this _ h (by simp)

/-- A line with the assignment of a string. -/
theorem scalar_line (hL : LocaleOk L) {n : List Char} (hn : NameWord L n) (v rest : List Char) :
    parseLine L (n ++ '=' :: (quoteAsWord L v ++ '\n' :: rest)) =
      some (oneCommand (.simple [] [.scalar n [.str (quoteAsWord L v)]] []), rest) := by
  have hq := literal_quote hL.ok v
  have hW : Literal L (n ++ '=' :: quoteAsWord L v) (n ++ '=' :: v) := by
    have := (hn.literal hL.ok).append ((literal_eq hL.ok).append hq)
    simpa using this
  have hsp := hn.split hL.ok (quoteAsWord L v)
  rw [if_neg (by simpa using hq.ne)] at hsp
  have ha := assign_scalar hL hsp (hW.item hL.ok) (hq.last hL.space)
  have hc : CmdRT L (.simple [] [.scalar n [.str (quoteAsWord L v)]] []) :=
    cmd_simple hL (by simp) (by simp) (by simp) (by simp) (fun a ham => by rw [List.mem_singleton.1 ham]; exact ha) (by simp) (by simp)
  have hp : printCommand L false 0 (.simple [] [.scalar n [.str (quoteAsWord L v)]] []) [] = (n ++ '=' :: quoteAsWord L v) ++ [' '] := by
    rw [printCommand_simple _ _ _ _ _ _ (by simp)]
    simp only [printRedirs, printAssigns, printAssign, printWords, printWord, printUnit]
    simp
  have := command_line hL hc hp rest
  rw [← List.cons_append, ← List.append_assoc]
  exact this

/-- The elements of an array as they are printed. -/
theorem printWords_array (ts : List (List Char)) (hts : ∀ t ∈ ts, t.getLast? ≠ some ' ' ∧ t ≠ []) (b : List Char) (hb : b.getLast? = some '(') :
    trimEnd (printWords L false 0 (ts.map fun t => [.str t]) b) = b ++ (lineOf ts).dropLast := by
  have htrim : ∀ (x : List Char) (k : Nat), x.getLast? ≠ some ' ' → trimEnd (x ++ List.replicate k ' ') = x := by
    intro x k hx
    unfold trimEnd
    rw [List.reverse_append, List.reverse_replicate, List.dropWhile_append_of_pos (by simp)]
    cases h : x.reverse with
    | nil => simp at h; simp [h]
    | cons c r =>
      have : x.getLast? = some c := by rw [List.getLast?_eq_head?_reverse, h]; rfl
      rw [List.dropWhile_cons, if_neg (by rw [this] at hx; simpa using hx), ← h, List.reverse_reverse]
  cases ts with
  | nil =>
    simp only [List.map_nil, printWords, lineOf, List.dropLast_singleton, List.append_nil]
    have := htrim b 0 (by rw [hb]; decide)
    simpa using this
  | cons t ts =>
    have h1 := printWords_texts (L := L) (t :: ts) (by simp) b
    have h2 : printWords L false 0 ((t :: ts).map fun t => [.str t]) b = b ++ (lineOf (t :: ts)).dropLast ++ [' '] := by
      have := congrArg List.dropLast h1
      simpa using this
    rw [h2]
    refine htrim _ 1 ?_
    have hlast : ∀ (ts : List (List Char)), (∀ t ∈ ts, t.getLast? ≠ some ' ' ∧ t ≠ []) → ts ≠ [] →
        (lineOf ts).dropLast ≠ [] ∧ (lineOf ts).dropLast.getLast? ≠ some ' ' := by
      intro ts
      induction ts with
      | nil => intro _ h; exact absurd rfl h
      | cons t ts ih =>
        intro h _
        cases ts with
        | nil => simpa [lineOf] using (h t (by simp)).symm
        | cons t' ts =>
          obtain ⟨i1, i2⟩ := ih (fun x hx => h x (by simp [hx])) (by simp)
          have hl : lineOf (t' :: ts) ≠ [] := by cases ts <;> simp [lineOf]
          simp only [lineOf]
          rw [List.dropLast_append_of_ne_nil (by simp), List.dropLast_cons_of_ne_nil hl]
          refine ⟨by simp, ?_⟩
          rw [List.getLast?_append, List.getLast?_cons_of_ne_nil i1]
          cases hh : (lineOf (t' :: ts)).dropLast.getLast? with
          | none => simp at hh; exact absurd hh i1
          | some x => rw [hh] at i2; simpa using i2
    obtain ⟨i1, i2⟩ := hlast (t :: ts) hts (by simp)
    rw [List.getLast?_append]
    cases hh : (lineOf (t :: ts)).dropLast.getLast? with
    | none => simp at hh; exact absurd hh i1
    | some x => rw [hh] at i2; simpa using i2

/-- A line with the assignment of an array. -/
theorem array_line (hL : LocaleOk L) {n : List Char} (hn : NameWord L n) (vs : List (List Char)) (rest : List Char) :
    parseLine L (n ++ "=(".toList ++ (lineOf (vs.map (quoteAsWord L))).dropLast ++ ')' :: '\n' :: rest) =
      some (oneCommand (.simple [] [.array n (vs.map fun v => [.str (quoteAsWord L v)])] []), rest) := by
  have hW : Literal L (n ++ ['=']) (n ++ ['=']) := (hn.literal hL.ok).append (literal_eq hL.ok)
  have hsp := hn.split hL.ok []
  have ha := assign_array (ws := vs.map fun v => [.str (quoteAsWord L v)]) hL hsp (hW.item hL.ok)
    (by
      intro w hw
      obtain ⟨v, _, rfl⟩ := List.mem_map.1 hw
      exact (literal_quote hL.ok v).item hL.ok)
    (by
      intro w hw
      obtain ⟨v, _, rfl⟩ := List.mem_map.1 hw
      exact (literal_quote hL.ok v).last hL.space)
  have hc : CmdRT L (.simple [] [.array n (vs.map fun v => [.str (quoteAsWord L v)])] []) :=
    cmd_simple hL (by simp) (by simp) (by simp) (by simp) (fun a ham => by rw [List.mem_singleton.1 ham]; exact ha) (by simp) (by simp)
  have hp : printWords L false 0 (vs.map fun v => [.str (quoteAsWord L v)]) = printWords L false 0 ((vs.map (quoteAsWord L)).map fun t => [.str t]) := by
    rw [List.map_map]; rfl
  have hp : printCommand L false 0 (.simple [] [.array n (vs.map fun v => [.str (quoteAsWord L v)])] []) [] =
      (n ++ "=(".toList ++ (lineOf (vs.map (quoteAsWord L))).dropLast ++ [')']) ++ [' '] := by
    rw [printCommand_simple _ _ _ _ _ _ (by simp)]
    simp only [printRedirs, printAssigns, printAssign, printWords, hp]
    rw [printWords_array]
    · simp
    · intro t ht
      obtain ⟨v, _, rfl⟩ := List.mem_map.1 ht
      have hq := literal_quote hL.ok v
      refine ⟨fun hl => hq.last hL.space ?_, hq.ne⟩
      refine ⟨[], (quoteAsWord L v).dropLast, ?_⟩
      have := List.dropLast_concat_getLast hq.ne
      rw [List.getLast?_eq_some_getLast hq.ne] at hl
      simp only [Option.some.injEq] at hl
      rw [hl] at this
      simp [this]
    · simp
  have := command_line hL hc hp rest
  rw [show ')' :: '\n' :: rest = [')'] ++ '\n' :: rest from rfl, ← List.append_assoc]
  exact this

end Yash.Restore
