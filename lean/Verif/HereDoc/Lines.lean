import Verif.HereDoc.Spec
/-!
# Finding the delimiter
-/
set_option autoImplicit false

namespace Yash.HereDoc

open Syntax Spec

/-! ## Tabs and prefixes -/

theorem skipTabs_rest (st : Src) : (skipTabs st).rest = st.rest.dropWhile (· = '\t') := by
  induction st using skipTabs.induct with
  | case1 b r ih => rw [skipTabs, ih]; simp
  | case2 st h =>
    rw [skipTabs]
    · obtain ⟨b, r⟩ := st
      cases r with
      | nil => rfl
      | cons c r =>
        have : c ≠ '\t' := by rintro rfl; exact h b r rfl
        simp [this]
    · exact h

theorem matchPrefix_iff (s p r : List Char) : matchPrefix s p = some r ↔ s = p ++ r := by
  induction p generalizing s with
  | nil => simp [matchPrefix]
  | cons d p ih =>
    cases s with
    | nil => simp [matchPrefix]
    | cons c s =>
      simp only [matchPrefix]
      by_cases h : c = d
      · simp [h, ih]
      · simp [h]

theorem splitLine_some {l : List Char} (hl : '\n' ∉ l) (r : List Char) : splitLine (l ++ '\n' :: r) = some (l ++ ['\n'], r) := by
  induction l with
  | nil => simp [splitLine]
  | cons c l ih =>
    have hc : c ≠ '\n' := fun e => hl (by simp [e])
    rw [List.cons_append, splitLine]
    · rw [ih fun h => hl (by simp [h])]
      rfl
    · exact fun e => absurd e hc

theorem splitLine_none {s : List Char} (h : '\n' ∉ s) : splitLine s = none := by
  induction s with
  | nil => rfl
  | cons c s ih =>
    rw [splitLine]
    · rw [ih fun k => h (by simp [k])]
    · exact fun e => h (by simp [e])

/-- The first line of a text. -/
theorem text_cases (text : List Char) : '\n' ∉ text ∨ ∃ l r, '\n' ∉ l ∧ text = l ++ '\n' :: r := by
  induction text with
  | nil => simp
  | cons c s ih =>
    by_cases hc : c = '\n'
    · exact .inr ⟨[], s, by simp, by simp [hc]⟩
    · rcases ih with h | ⟨l, r, h1, h2⟩
      · exact .inl (by simp [h, Ne.symm hc])
      · exact .inr ⟨c :: l, r, by simp [h1, Ne.symm hc], by simp [h2]⟩

theorem takeWhile_line {l : List Char} (hl : '\n' ∉ l) (r : List Char) : (l ++ '\n' :: r).takeWhile (· ≠ '\n') = l := by
  induction l with
  | nil => simp
  | cons c l ih =>
    have hc : c ≠ '\n' := fun e => hl (by simp [e])
    have := ih fun h => hl (by simp [h])
    simpa [List.takeWhile_cons, hc] using this

theorem takeWhile_all {l : List Char} (hl : '\n' ∉ l) : l.takeWhile (· ≠ '\n') = l := by
  induction l with
  | nil => rfl
  | cons c l ih =>
    have hc : c ≠ '\n' := fun e => hl (by simp [e])
    have := ih fun h => hl (by simp [h])
    simpa [List.takeWhile_cons, hc] using this

theorem takeWhile_not_mem (s : List Char) : '\n' ∉ s.takeWhile (· ≠ '\n') := by
  induction s with
  | nil => simp
  | cons c s ih =>
    rw [List.takeWhile_cons]
    split
    · rename_i h
      simp at h
      have ih' := ih
      simp at ih'
      simpa [Ne.symm h] using ih'
    · simp

theorem take_untab (tabs : Bool) (s : List Char) : (untab tabs s).takeWhile (· ≠ '\n') = untab tabs (s.takeWhile (· ≠ '\n')) := by
  cases tabs with
  | false => rfl
  | true =>
    simp only [untab, if_true]
    induction s with
    | nil => rfl
    | cons c s ih =>
      by_cases hc : c = '\t'
      · subst hc
        simpa using ih
      · by_cases hn : c = '\n'
        · subst hn; simp
        · simp [hc, hn]

/-- A text whose first line is the line `l`. -/
theorem take_append {l r : List Char} (hl : '\n' ∉ l) (hr : r = [] ∨ r.head? = some '\n') : (l ++ r).takeWhile (· ≠ '\n') = l := by
  rcases hr with rfl | hr
  · rw [List.append_nil]; exact takeWhile_all hl
  · cases r with
    | nil => simp at hr
    | cons c r =>
      simp at hr
      subst hr
      exact takeWhile_line hl r

/-! ## The end of the contents -/

theorem isEnd_rest (tabs : Bool) (b text : List Char) :
    ∃ b', (if tabs then skipTabs ⟨b, text⟩ else ⟨b, text⟩) = (⟨b', untab tabs text⟩ : Src) := by
  cases tabs with
  | false => exact ⟨b, rfl⟩
  | true => exact ⟨(skipTabs ⟨b, text⟩).before, by
    have := skipTabs_rest ⟨b, text⟩
    simp only [if_true, untab]
    rw [← show (skipTabs ⟨b, text⟩).rest = text.dropWhile (· = '\t') from this]⟩

/-- A first line other than the delimiter. -/
theorem isEnd_false {eoc : List Char} (he : '\n' ∉ eoc) (tabs : Bool) (b : List Char) {text : List Char} (hne : text ≠ [])
    (h : untab tabs (text.takeWhile (· ≠ '\n')) ≠ eoc) : ∃ b', isEnd eoc tabs ⟨b, text⟩ = (false, ⟨b', untab tabs text⟩) := by
  obtain ⟨b', hb⟩ := isEnd_rest tabs b text
  refine ⟨b', ?_⟩
  cases text with
  | nil => exact absurd rfl hne
  | cons c text =>
    simp only [isEnd]
    rw [hb]
    simp only
    split
    · rename_i hm
      rw [matchPrefix_iff] at hm
      rw [← take_untab, hm, take_append he (.inl rfl)] at h
      exact absurd rfl h
    · rename_i r hm
      rw [matchPrefix_iff] at hm
      rw [← take_untab, hm, take_append he (.inr rfl)] at h
      exact absurd rfl h
    · rfl

/-- The delimiter. -/
theorem isEnd_true {eoc : List Char} {tabs : Bool} (b : List Char) {text rest : List Char} (h : Closes tabs eoc text rest) :
    ∃ b', isEnd eoc tabs ⟨b, text⟩ = (true, ⟨b', rest⟩) := by
  obtain ⟨l, hl, hu, h⟩ := h
  have hul : ∀ r, (r = [] ∨ r.head? = some '\n') → untab tabs (l ++ r) = eoc ++ r := by
    intro r hr
    rw [← hu]
    cases tabs with
    | false => rfl
    | true =>
      simp only [untab, if_true]
      clear hu h hl
      induction l with
      | nil =>
        rcases hr with rfl | hr
        · rfl
        · cases r with
          | nil => rfl
          | cons c r =>
            simp at hr
            subst hr
            simp
      | cons c l ih =>
        by_cases hc : c = '\t'
        · subst hc; simpa using ih
        · simp [hc]
  rcases h with rfl | ⟨rfl, hne, rfl⟩
  · obtain ⟨b', hb⟩ := isEnd_rest tabs b (l ++ '\n' :: rest)
    refine ⟨'\n' :: eoc.reverse ++ b', ?_⟩
    unfold isEnd
    split
    · rename_i h; simp at h
    · rw [hb, hul _ (.inr rfl)]
      simp only
      rw [(matchPrefix_iff _ _ _).2 rfl]
      rfl
  · obtain ⟨b', hb⟩ := isEnd_rest tabs b text
    refine ⟨eoc.reverse ++ b', ?_⟩
    unfold isEnd
    split
    · rename_i h; exact absurd h hne
    · have := hul [] (.inl rfl)
      rw [List.append_nil] at this
      rw [hb, this]
      simp only
      rw [(matchPrefix_iff _ _ []).2 (by simp)]

theorem untab_not_mem {tabs : Bool} {l : List Char} (h : '\n' ∉ l) : '\n' ∉ untab tabs l := by
  cases tabs with
  | false => exact h
  | true => exact fun k => h ((List.dropWhile_suffix _).subset k)

theorem untab_line (tabs : Bool) (l r : List Char) : untab tabs (l ++ '\n' :: r) = untab tabs l ++ '\n' :: r := by
  cases tabs with
  | false => rfl
  | true =>
    simp only [untab, if_true]
    induction l with
    | nil => simp
    | cons c l ih =>
      by_cases hc : c = '\t'
      · subst hc; simpa using ih
      · simp [hc]

/-! ## Quoted delimiters -/

theorem quotedLoop_reads {eoc : List Char} (he : '\n' ∉ eoc) {tabs : Bool} {lines : List (List Char)} {last rest : List Char}
    (hl : ∀ l ∈ lines, '\n' ∉ l ∧ untab tabs l ≠ eoc) (hc : Closes tabs eoc last rest) (n : Nat) (b : List Char)
    (hn : (lines.flatMap (· ++ ['\n']) ++ last).length < n) :
    ∃ b', quotedLoop eoc tabs n ⟨b, lines.flatMap (· ++ ['\n']) ++ last⟩ =
      some (lines.flatMap (fun l => untab tabs l ++ ['\n']), ⟨b', rest⟩) := by
  induction lines generalizing n b with
  | nil =>
    obtain ⟨n, rfl⟩ : ∃ k, n = k + 1 := ⟨n - 1, by omega⟩
    obtain ⟨b', hb⟩ := isEnd_true b hc
    refine ⟨b', ?_⟩
    simp only [List.flatMap_nil, List.nil_append, quotedLoop]
    rw [hb]
  | cons l ls ih =>
    obtain ⟨n, rfl⟩ : ∃ k, n = k + 1 := ⟨n - 1, by omega⟩
    obtain ⟨h1, h2⟩ := hl l (by simp)
    have hx : List.flatMap (fun x => x ++ ['\n']) (l :: ls) ++ last = l ++ '\n' :: (ls.flatMap (· ++ ['\n']) ++ last) := by simp
    rw [hx] at hn ⊢
    obtain ⟨b1, hb1⟩ := isEnd_false he tabs b (text := l ++ '\n' :: (ls.flatMap (· ++ ['\n']) ++ last)) (by simp)
      (by rw [takeWhile_line h1]; exact h2)
    obtain ⟨b2, hb2⟩ := ih (fun k hk => hl k (by simp [hk])) n ((untab tabs l ++ ['\n']).reverse ++ b1) (by simp at hn ⊢; omega)
    refine ⟨b2, ?_⟩
    rw [quotedLoop, hb1]
    simp only
    rw [untab_line, splitLine_some (untab_not_mem h1)]
    simp only
    rw [hb2]
    simp

theorem quotedLoop_found {eoc : List Char} (he : '\n' ∉ eoc) {tabs : Bool} (n : Nat) {b text s : List Char} {st : Src}
    (h : quotedLoop eoc tabs n ⟨b, text⟩ = some (s, st)) : ∃ lines, Verbatim tabs eoc lines text st.rest := by
  induction n generalizing b text s st with
  | zero => simp [quotedLoop] at h
  | succ n ih =>
    by_cases hne : text = []
    · subst hne
      simp [quotedLoop, isEnd, splitLine] at h
    · rcases text_cases text with hnl | ⟨l, r, hl, rfl⟩
      · by_cases hu : untab tabs text = eoc
        · have hc : Closes tabs eoc text [] := ⟨text, hnl, hu, .inr ⟨rfl, hne, rfl⟩⟩
          obtain ⟨b', hb⟩ := isEnd_true b hc
          rw [quotedLoop, hb] at h
          cases h
          exact ⟨[], by simp, text, by simp, hc⟩
        · obtain ⟨b', hb⟩ := isEnd_false he tabs b hne (by rw [takeWhile_all hnl]; exact hu)
          rw [quotedLoop, hb] at h
          simp only at h
          rw [splitLine_none (untab_not_mem hnl)] at h
          cases h
      · by_cases hu : untab tabs l = eoc
        · have hc : Closes tabs eoc (l ++ '\n' :: r) r := ⟨l, hl, hu, .inl rfl⟩
          obtain ⟨b', hb⟩ := isEnd_true b hc
          rw [quotedLoop, hb] at h
          cases h
          exact ⟨[], by simp, _, by simp, hc⟩
        · obtain ⟨b', hb⟩ := isEnd_false he tabs b hne (by rw [takeWhile_line hl]; exact hu)
          rw [quotedLoop, hb] at h
          simp only at h
          rw [untab_line, splitLine_some (untab_not_mem hl)] at h
          simp only at h
          split at h
          · cases h
          · rename_i s' st' hq
            cases h
            obtain ⟨ls, h1, last, h2, h3⟩ := ih hq
            exact ⟨l :: ls, by simpa using ⟨⟨hl, hu⟩, fun a ha => h1 a ha⟩, last, by simp [h2], h3⟩

/-! ## The word after the operator -/

theorem addSq_quote (q s : List Char) (h : '\'' ∉ q) : Expand.addSq false (q ++ '\'' :: s) = (q, '\'' :: s) := by
  induction q with
  | nil => simp [Expand.addSq]
  | cons c q ih =>
    have hc : c ≠ '\'' := fun e => h (by simp [e])
    simp [Expand.addSq, hc, ih fun k => h (by simp [k])]

theorem unquote_double {q p : List Char} (h : InDouble q p) (buf s : List Char) :
    Expand.unquoteLoop true buf (q ++ '"' :: s) = Expand.unquoteLoop false (buf ++ p) s := by
  induction h generalizing buf with
  | nil =>
    rw [List.nil_append, Expand.unquoteLoop.eq_def]
    simp only
    rw [if_neg (by simp), if_pos trivial]
    simp
  | @char c q p h1 h2 _ ih =>
    rw [List.cons_append, Expand.unquoteLoop.eq_def]
    simp only
    rw [if_neg (by simp), if_neg h1, if_neg h2, ih]
    simp
  | @escaped c q p hc _ ih =>
    rw [List.cons_append, List.cons_append, Expand.unquoteLoop.eq_def]
    simp only
    rw [if_neg (by simp), if_neg (by decide), if_pos trivial, if_pos (by right; simpa [Expand.charsEscapable] using hc), ih]
    simp
  | @backslash c q p hc _ ih =>
    rw [List.cons_append, List.cons_append, Expand.unquoteLoop.eq_def]
    simp only
    rw [if_neg (by simp), if_neg (by decide), if_pos trivial, if_neg (by simpa [Expand.charsEscapable] using hc)]
    have := ih (buf ++ ['\\'])
    rw [List.cons_append] at this
    rw [this]
    simp

theorem unquote_loop {s t : List Char} (h : StandsFor s t) (buf : List Char) : Expand.unquoteLoop false buf s = some (buf ++ t) := by
  induction h generalizing buf with
  | nil => simp [Expand.unquoteLoop]
  | @char c s t h1 h2 h3 _ ih =>
    rw [Expand.unquoteLoop.eq_def]
    simp only
    rw [if_neg (by simp [h2]), if_neg h1, if_neg h3, ih]
    simp
  | @backslash c s t _ ih =>
    rw [Expand.unquoteLoop.eq_def]
    simp only
    rw [if_neg (by simp), if_neg (by decide), if_pos trivial, if_pos (by simp), ih]
    simp
  | @single q s t hq _ ih =>
    rw [List.cons_append, Expand.unquoteLoop.eq_def]
    simp only
    rw [if_pos (by simp)]
    rw [addSq_quote q s hq]
    simp only
    rw [ih]
    simp
  | @double q p s t hq _ ih =>
    rw [List.cons_append, Expand.unquoteLoop.eq_def]
    simp only
    rw [if_neg (by simp), if_pos trivial]
    rw [show (!false) = true from rfl, unquote_double hq, ih]
    simp

theorem unquote_of {s t : List Char} (h : StandsFor s t) : Expand.unquote s = some t := by
  have := unquote_loop h []
  simpa [Expand.unquote] using this

theorem standsFor_no_newline {s t : List Char} (h : StandsFor s t) (hs : '\n' ∉ s) : '\n' ∉ t := by
  have hd : ∀ {q p : List Char}, InDouble q p → '\n' ∉ q → '\n' ∉ p := by
    intro q p h
    induction h with
    | nil => simp
    | char _ _ _ ih => simp only [List.mem_cons, not_or]; exact fun k => ⟨k.1, ih k.2⟩
    | escaped _ _ ih => simp only [List.mem_cons, not_or]; exact fun k => ⟨k.2.1, ih k.2.2⟩
    | backslash _ _ ih => simp only [List.mem_cons, not_or] at ih ⊢; exact fun k => ⟨k.1, ih k.2⟩
  induction h with
  | nil => simp
  | char _ _ _ _ ih => simp only [List.mem_cons, not_or] at hs ⊢; exact ⟨hs.1, ih hs.2⟩
  | backslash _ ih => simp only [List.mem_cons, not_or] at hs ⊢; exact ⟨hs.2.1, ih hs.2.2⟩
  | single _ _ ih =>
    simp only [List.cons_append, List.mem_cons, List.mem_append, not_or] at hs ⊢
    exact ⟨hs.2.1, ih hs.2.2.2⟩
  | double hq _ ih =>
    simp only [List.cons_append, List.mem_cons, List.mem_append, not_or] at hs ⊢
    exact ⟨hd hq hs.2.1, ih hs.2.2.2⟩

end Yash.HereDoc
