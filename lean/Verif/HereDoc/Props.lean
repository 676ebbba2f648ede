import Verif.HereDoc.Reading
import Verif.Parser.AcceptProps
import Verif.Expand.WordProps
/-!
# C72: here-documents
-/
set_option autoImplicit false

namespace Yash.HereDoc

open Syntax Spec
open Parser.Spec (LocaleOk)
open Expand (Locale cLocale)

variable {L : Locale}

theorem quoted_iff (s : List Char) : (s.any fun c => c == '"' || c == '\'' || c == '\\') = true ↔ Quoted s := by
  simp [Quoted, or_assoc]

theorem line_plain {is : List Item} (h : Line L is) : Plain is := by
  induction h with
  | nil => simp [Plain]
  | char h1 _ ih =>
    intro i hi
    rcases List.mem_cons.1 hi with rfl | hi
    · rintro ⟨⟩; simp at h1
    · exact ih i hi
  | _ =>
    rename_i ih
    intro i hi
    rcases List.mem_cons.1 hi with rfl | hi
    · simp
    · exact ih i hi

theorem lines_become {σ : Type} {E : Expand.Env σ} {lines : List (List Item)} (hp : ∀ l ∈ lines, Plain l) {s s' : σ} {t : List Char}
    (h : Values E s (lines.flatMap fun l => l ++ [.char '\n']) s' t) :
    Becomes E s (lines.flatMap fun l => wordOf [] (l ++ [.char '\n'])) s' t := by
  induction lines generalizing s t with
  | nil => cases h; exact .nil _
  | cons l ls ih =>
    rw [List.flatMap_cons] at h ⊢
    obtain ⟨s1, a, b, h1, h2, rfl⟩ := Values.append.1 h
    refine Becomes.append ?_ (ih (fun k hk => hp k (by simp [hk])) h2)
    have : Plain (l ++ [.char '\n']) := by
      intro i hi
      rcases List.mem_append.1 hi with hi | hi
      · exact hp l (by simp) i hi
      · rw [List.mem_singleton.1 hi]; simp
    simpa using wordOf_becomes .nil this h1

/-- One here-document is read up to its delimiter, and the command reads what its contents become. -/
theorem doc_read (hL : LocaleOk L) {d : Pending} {text rest : List Char} {is : List Item} (hn : '\n' ∉ d.delim) (h : Doc L d text rest is)
    (b : List Char) : ∃ w b', readContents L d ⟨b, text⟩ = some (w, ⟨b', rest⟩) ∧
      ∀ (σ : Type) (E : Expand.Env σ) (s s' : σ) (t : List Char), Values E s is s' t → openHeredocument E w s = .ok s' t := by
  have hn' : d.delim.contains '\n' = false := by simpa using hn
  cases h with
  | @quoted delim text rest lines hq hs hv =>
    obtain ⟨h1, last, rfl, h2⟩ := hv
    obtain ⟨b', hb⟩ := quotedLoop_reads (standsFor_no_newline hs hn) h1 h2 _ b (Nat.lt_succ_self _)
    refine ⟨[.str (Expand.escape (some ['\\']) (lines.flatMap fun l => untab d.removeTabs l ++ ['\n']))], b', ?_, fun σ E s s' t hval => ?_⟩
    · unfold readContents
      rw [hn', if_neg (by simp), if_pos ((quoted_iff _).2 hq), readQuoted, unquote_of hs]
      simp only
      rw [hb]
    · obtain ⟨rfl, rfl⟩ := Values.chars hval
      exact (escape_becomes _ _).opened
  | @expanding text rest last lines hq hl hd ht hc =>
    subst ht
    obtain ⟨b', hb⟩ := expandingLoop_reads hL hn hl hd hc (m := (lines.flatMap (fun l => l.flatMap (written L) ++ ['\n']) ++ last).length + 3) _ b
      (Nat.lt_succ_self _) (by omega)
    refine ⟨lines.flatMap fun l => wordOf [] (untabItems d.removeTabs l ++ [.char '\n']), b', ?_, fun σ E s s' t hval => ?_⟩
    · unfold readContents
      rw [hn', if_neg (by simp), if_neg (by rw [quoted_iff]; exact hq)]
      exact hb
    · have hval' : Values E s ((lines.map (untabItems d.removeTabs)).flatMap fun l => l ++ [.char '\n']) s' t := by
        rw [List.flatMap_map]; exact hval
      have := lines_become (fun l hl' => ?_) hval'
      · rw [List.flatMap_map] at this
        exact this.opened
      · obtain ⟨k, hk, rfl⟩ := List.mem_map.1 hl'
        exact line_plain (untab_items hL d.removeTabs (hl k hk) []).1

/-- C72: when the newline after a command is read, the here-documents are taken from the following lines in the order of
their operators: each goes up to the line that is its delimiter, and what follows the last one is left to be read. Each
command reads the contents of its here-document: every character as it is if the delimiter is quoted, and otherwise with the
expansions replaced. -/
theorem C72_here_documents (hL : LocaleOk L) {ds : List Pending} {text rest : List Char} {iss : List (List Item)} (h : Docs L ds text rest iss)
    (b : List Char) : ∃ ws b', nextLine L ds ⟨b, '\n' :: text⟩ = some (ws, ⟨b', rest⟩) ∧ ws.length = ds.length ∧ iss.length = ds.length ∧
      ∀ (i : Nat) (w : Word) (is : List Item), ws[i]? = some w → iss[i]? = some is →
        ∀ (σ : Type) (E : Expand.Env σ) (s s' : σ) (t : List Char), Values E s is s' t → openHeredocument E w s = .ok s' t := by
  rw [nextLine]
  generalize '\n' :: b = b
  induction h generalizing b with
  | nil text => exact ⟨[], b, rfl, rfl, rfl, by simp⟩
  | cons hn hd _ ih =>
    obtain ⟨w, b1, h1, h2⟩ := doc_read hL hn hd b
    obtain ⟨ws, b2, h3, h4, h5, h6⟩ := ih b1
    refine ⟨w :: ws, b2, ?_, by simp [h4], by simp [h5], ?_⟩
    · rw [readPending, h1]
      simp only
      rw [h3]
    · intro i w' is' hw hi
      cases i with
      | zero => cases hw; cases hi; exact h2
      | succ i => exact h6 i w' is' (by simpa using hw) (by simpa using hi)

/-- C72: a here-document with a quoted delimiter reaches the command exactly as it is written, except that `<<-` removes
leading tabs. -/
theorem C72_quoted {d : Pending} {delim text rest : List Char} {lines : List (List Char)} (hn : '\n' ∉ d.delim) (hq : Quoted d.delim)
    (hs : StandsFor d.delim delim) (hv : Verbatim d.removeTabs delim lines text rest) (b : List Char) :
    ∃ w b', readContents L d ⟨b, text⟩ = some (w, ⟨b', rest⟩) ∧ ∀ (σ : Type) (E : Expand.Env σ) (s : σ),
      openHeredocument E w s = .ok s (lines.flatMap fun l => untab d.removeTabs l ++ ['\n']) := by
  have hn' : d.delim.contains '\n' = false := by simpa using hn
  obtain ⟨h1, last, rfl, h2⟩ := hv
  obtain ⟨b', hb⟩ := quotedLoop_reads (standsFor_no_newline hs hn) h1 h2 _ b (Nat.lt_succ_self _)
  refine ⟨[.str (Expand.escape (some ['\\']) (lines.flatMap fun l => untab d.removeTabs l ++ ['\n']))], b', ?_, fun σ E s => (escape_becomes _ _).opened⟩
  unfold readContents
  rw [hn', if_neg (by simp), if_pos ((quoted_iff _).2 hq), readQuoted, unquote_of hs]
  simp only
  rw [hb]

/-- C72: without a line that is the quoted delimiter, the here-document is an error. -/
theorem C72_unclosed {d : Pending} {delim text : List Char} (hn : '\n' ∉ d.delim) (hq : Quoted d.delim) (hs : StandsFor d.delim delim)
    (h : ∀ lines rest, ¬Verbatim d.removeTabs delim lines text rest) (b : List Char) : readContents L d ⟨b, text⟩ = none := by
  have hn' : d.delim.contains '\n' = false := by simpa using hn
  unfold readContents
  rw [hn', if_neg (by simp), if_pos ((quoted_iff _).2 hq), readQuoted, unquote_of hs]
  simp only
  split
  · rfl
  · rename_i s st hb
    obtain ⟨lines, hv⟩ := quotedLoop_found (standsFor_no_newline hs hn) _ hb
    exact absurd hv (h lines _)

/-! ## Text without expansions -/

theorem chars_written (l : List Char) : (l.map Item.char).flatMap (written L) = l := by
  induction l with
  | nil => rfl
  | cons c l ih => simp [written, ih]

theorem chars_line {l : List Char} (h : ∀ c ∈ l, c ∉ "\\$`\n".toList) : Line L (l.map .char) := by
  induction l with
  | nil => exact .nil
  | cons c l ih => exact .char (h c (by simp)) (ih fun d hd => h d (by simp [hd]))

theorem chars_untab (tabs : Bool) (l : List Char) : untabItems tabs (l.map .char) = (untab tabs l).map .char := by
  cases tabs with
  | false => rfl
  | true =>
    simp only [untabItems, untab, if_true]
    induction l with
    | nil => rfl
    | cons c l ih =>
      by_cases hc : c = '\t'
      · subst hc; simpa using ih
      · simp [hc]

theorem chars_values {σ : Type} (E : Expand.Env σ) (s : σ) (l : List Char) : Values E s (l.map .char) s l := by
  induction l with
  | nil => exact .nil s
  | cons c l ih => exact .cons (t := [c]) (.char s c) ih

/-- C72: text without dollar signs, backquotes and backslashes reaches the command as it is written also if the delimiter is
not quoted. -/
theorem C72_plain (hL : LocaleOk L) {d : Pending} {text rest : List Char} {lines : List (List Char)} (hn : '\n' ∉ d.delim) (hq : ¬Quoted d.delim)
    (hp : ∀ l ∈ lines, ∀ c ∈ l, c ∉ "\\$`".toList) (hv : Verbatim d.removeTabs d.delim lines text rest) (b : List Char) :
    ∃ w b', readContents L d ⟨b, text⟩ = some (w, ⟨b', rest⟩) ∧ ∀ (σ : Type) (E : Expand.Env σ) (s : σ),
      openHeredocument E w s = .ok s (lines.flatMap fun l => untab d.removeTabs l ++ ['\n']) := by
  obtain ⟨h1, last, ht, h2⟩ := hv
  have hd : Doc L d text rest ((lines.map fun l => l.map Item.char).flatMap fun l => untabItems d.removeTabs l ++ [.char '\n']) := by
    refine .expanding hq ?_ ?_ ?_ h2
    · intro l hl
      obtain ⟨k, hk, rfl⟩ := List.mem_map.1 hl
      refine chars_line fun c hc => ?_
      have c1 := hp k hk c hc
      have c2 : c ≠ '\n' := fun e => (h1 k hk).1 (e ▸ hc)
      simp at c1 ⊢
      simp [c1, c2]
    · intro l hl
      obtain ⟨k, hk, rfl⟩ := List.mem_map.1 hl
      rw [chars_written, takeWhile_all (h1 k hk).1]
      exact (h1 k hk).2
    · rw [ht, List.flatMap_map]
      simp only [chars_written]
  obtain ⟨w, b', h3, h4⟩ := doc_read hL hn hd b
  refine ⟨w, b', h3, fun σ E s => h4 σ E s s _ ?_⟩
  have : ((lines.map fun l => l.map Item.char).flatMap fun l => untabItems d.removeTabs l ++ [Item.char '\n']) =
      (lines.flatMap fun l => untab d.removeTabs l ++ ['\n']).map .char := by
    rw [List.flatMap_map, List.map_flatMap]
    simp [chars_untab]
  rw [this]
  exact chars_values E s _

/-- Where the reader is after a line without expansions. -/
def afterLine (b : List Char) : List Char → Src
  | [] => ⟨b, []⟩
  | _ :: r => ⟨'\n' :: b, r⟩

theorem stringLoop_plain (sp : Special) {l : List Char} (hp : ∀ c ∈ l, c ∉ "\\$`\n".toList) (n : Nat) (acc b r : List Char)
    (hr : r = [] ∨ r.head? = some '\n') {w : Word} {st : Src} (h : stringLoop sp true true n acc ⟨b, l ++ r⟩ = some (w, st)) :
    st = afterLine (l.reverse ++ b) r := by
  induction l generalizing n acc b with
  | nil =>
    cases n with
    | zero => simp [stringLoop] at h
    | succ n =>
      rcases hr with rfl | hr
      · simp [stringLoop, lineCont] at h
        exact h.2.symm
      · cases r with
        | nil => simp at hr
        | cons c r =>
          simp at hr
          subst hr
          simp [stringLoop, lineCont] at h
          simpa [afterLine] using h.2.symm
  | cons c l ih =>
    cases n with
    | zero => simp [stringLoop] at h
    | succ n =>
      have hc := hp c (by simp)
      simp at hc
      rw [List.cons_append, stringLoop, Parser.lineCont_id hc.1] at h
      simp only at h
      rw [if_neg (by simp [hc]), if_neg (by simp [hc]), if_neg (by simp [hc])] at h
      have := ih (fun d hd => hp d (by simp [hd])) n _ _ h
      rw [this]
      simp

theorem expandingLoop_found (sp : Special) {eoc : List Char} (he : '\n' ∉ eoc) {tabs : Bool} (n : Nat) {b text : List Char} {w : Word} {st : Src}
    (hp : ∀ c ∈ text, c ∉ "\\$`".toList) (h : expandingLoop sp eoc tabs n ⟨b, text⟩ = some (w, st)) :
    ∃ lines, Verbatim tabs eoc lines text st.rest := by
  induction n generalizing b text w st with
  | zero => simp [expandingLoop] at h
  | succ n ih =>
    have hpl : ∀ l, '\n' ∉ l → (∀ c ∈ l, c ∈ text) → ∀ c ∈ untab tabs l, c ∉ "\\$`\n".toList := by
      intro l hl hs c hc
      have hcl : c ∈ l := by
        unfold untab at hc
        split at hc
        · exact (List.dropWhile_suffix _).subset hc
        · exact hc
      have h1 := hp c (hs c hcl)
      have h2 : c ≠ '\n' := fun e => hl (e ▸ hcl)
      simp at h1 ⊢
      simp [h1, h2]
    by_cases hne : text = []
    · subst hne
      rw [expandingLoop] at h
      simp only [isEnd] at h
      split at h
      · cases h
      · rename_i w' st' hs
        have := stringLoop_plain sp (l := []) (r := []) (by simp) _ _ _ (.inl rfl) hs
        subst this
        simp [afterLine] at h
    · rcases text_cases text with hnl | ⟨l, r, hl, rfl⟩
      · by_cases hu : untab tabs text = eoc
        · have hc : Closes tabs eoc text [] := ⟨text, hnl, hu, .inr ⟨rfl, hne, rfl⟩⟩
          obtain ⟨b', hb⟩ := isEnd_true b hc
          rw [expandingLoop, hb] at h
          cases h
          exact ⟨[], by simp, text, by simp, hc⟩
        · obtain ⟨b', hb⟩ := isEnd_false he tabs b hne (by rw [takeWhile_all hnl]; exact hu)
          rw [expandingLoop, hb] at h
          simp only at h
          split at h
          · cases h
          · rename_i w' st' hs
            have := stringLoop_plain sp (l := untab tabs text) (r := []) (hpl text hnl fun c hc => hc) _ _ _ (.inl rfl)
              (by rw [List.append_nil]; exact hs)
            simp only [afterLine] at this
            subst this
            have hno := untab_not_mem (tabs := tabs) hnl
            cases hx : (untab tabs text).reverse with
            | nil => simp [hx] at h
            | cons x xs =>
              have : x ≠ '\n' := by
                rintro rfl
                exact hno (by rw [← List.mem_reverse, hx]; simp)
              rw [hx] at h
              simp [this] at h
      · by_cases hu : untab tabs l = eoc
        · have hc : Closes tabs eoc (l ++ '\n' :: r) r := ⟨l, hl, hu, .inl rfl⟩
          obtain ⟨b', hb⟩ := isEnd_true b hc
          rw [expandingLoop, hb] at h
          cases h
          exact ⟨[], by simp, _, by simp, hc⟩
        · obtain ⟨b', hb⟩ := isEnd_false he tabs b hne (by rw [takeWhile_line hl]; exact hu)
          rw [expandingLoop, hb] at h
          simp only at h
          rw [untab_line] at h
          split at h
          · cases h
          · rename_i w' st' hs
            have := stringLoop_plain sp (l := untab tabs l) (r := '\n' :: r) (hpl l hl fun c hc => by simp [hc]) _ _ _ (.inr rfl) hs
            simp only [afterLine] at this
            subst this
            split at h
            · cases h
            · split at h
              · cases h
              · rename_i hq
                cases h
                obtain ⟨ls, h1, last, h2, h3⟩ := ih (fun c hc => hp c (by simp [hc])) hq
                exact ⟨l :: ls, by simpa using ⟨⟨hl, hu⟩, fun a ha => h1 a ha⟩, last, by simp [h2], h3⟩

/-- C72: without a line that is the delimiter, text without expansions is an error also if the delimiter is not quoted. -/
theorem C72_plain_unclosed {d : Pending} {text : List Char} (hn : '\n' ∉ d.delim) (hq : ¬Quoted d.delim) (hp : ∀ c ∈ text, c ∉ "\\$`".toList)
    (h : ∀ lines rest, ¬Verbatim d.removeTabs d.delim lines text rest) (b : List Char) : readContents L d ⟨b, text⟩ = none := by
  have hn' : d.delim.contains '\n' = false := by simpa using hn
  unfold readContents
  rw [hn', if_neg (by simp), if_neg (by rw [quoted_iff]; exact hq)]
  cases hb : expandingLoop (Parser.parser L (text.length + 3)).special d.delim d.removeTabs (text.length + 1) ⟨b, text⟩ with
  | none => rfl
  | some r =>
    obtain ⟨lines, hv⟩ := expandingLoop_found _ hn _ hp hb
    exact absurd hv (h lines _)

/-! ## Examples -/

namespace Ex

open Parser.Ex (var varG)
open Expand (cLocale exampleEnv)

/-- `cat <<A <<-'B'` is followed by these lines. -/
def lines : List Char := "x=${x} \\$y\nA\n\t\tA $x\n\tB\necho\n".toList

def first : List Item :=
  [.char 'x', .char '=', .unit var, .char ' ', .backslash '$', .char 'y', .char '\n']

def second : List Item := "A $x\n".toList.map .char

theorem docs : Docs cLocale [⟨false, ['A']⟩, ⟨true, "'B'".toList⟩] lines "echo\n".toList [first, second] := by
  refine .cons (by decide) (mid := "\t\tA $x\n\tB\necho\n".toList) ?_ (.cons (by decide) (mid := "echo\n".toList) ?_ (.nil _))
  · refine .expanding (lines := [first.dropLast]) (last := "A\n\t\tA $x\n\tB\necho\n".toList) ?_ ?_ ?_ ?_ ?_
    · simp [Quoted]
    · simp only [first, List.dropLast, List.mem_singleton, forall_eq]
      exact .char (by decide) (.char (by decide) (.unit varG (.char (by decide) (.backslash (by decide) (.char (by decide) .nil)))))
    · decide +kernel
    · decide +kernel
    · exact ⟨['A'], by decide, by decide, .inl rfl⟩
  · refine .quoted (delim := ['B']) (lines := ["\t\tA $x".toList]) ⟨'\'', by simp⟩ ?_ ⟨by decide, "\tB\necho\n".toList, rfl, ?_⟩
    · exact .single (q := ['B']) (by decide) .nil
    · exact ⟨"\tB".toList, by decide, by decide, .inl rfl⟩

theorem first_value : Values exampleEnv () first () "x=a * $y\n".toList :=
  .cons (t := ['x']) (.char _ _) (.cons (t := ['=']) (.char _ _) (.cons (t := "a *".toList) (.variable rfl)
    (.cons (t := [' ']) (.char _ _) (.cons (t := ['$']) (.quoted _ (by decide)) (.cons (t := ['y']) (.char _ _)
      (.cons (t := ['\n']) (.char _ _) (.nil _)))))))

/-- The first command reads `x=a * $y`, the second reads `A $x`, and `echo` is left to be read. -/
example : ∃ v w b, nextLine cLocale [⟨false, ['A']⟩, ⟨true, "'B'".toList⟩] ⟨[], '\n' :: lines⟩ = some ([v, w], ⟨b, "echo\n".toList⟩) ∧
    openHeredocument exampleEnv v () = .ok () "x=a * $y\n".toList ∧ openHeredocument exampleEnv w () = .ok () "A $x\n".toList := by
  obtain ⟨ws, b, h1, h2, _, h3⟩ := C72_here_documents Parser.cLocale_localeOk docs []
  match ws, h2 with
  | [v, w], _ => exact ⟨v, w, b, h1, h3 0 _ _ rfl rfl _ _ _ _ _ first_value, h3 1 _ _ rfl rfl _ _ _ _ _ (chars_values _ _ _)⟩

/-- Nothing closes this here-document. -/
example : readContents cLocale ⟨false, ['A']⟩ ⟨[], " A".toList⟩ = none := by
  refine C72_plain_unclosed (by decide) (by simp [Quoted]) (by decide) ?_ []
  rintro lines rest ⟨-, last, h1, l, h2, h3, h4⟩
  cases lines with
  | cons a as => exact absurd (show '\n' ∈ " A".toList by rw [h1]; simp) (by decide)
  | nil =>
    subst h3
    rcases h4 with rfl | ⟨rfl, -⟩
    · exact absurd (show '\n' ∈ " A".toList by rw [h1]; simp) (by decide)
    · cases h1

end Ex

end Yash.HereDoc
