import Verif.HereDoc.Lines
import Verif.HereDoc.Value
import Verif.Parser.Accept
import Verif.Parser.AcceptWords
import Verif.Parser.Agree
/-!
# Reading contents that are subject to expansion
-/
set_option autoImplicit false

namespace Yash.HereDoc

open Syntax Spec Parser
open Parser.Spec (LocaleOk)
open Parser.Grammar (UnitG StartsExpansion)
open Expand (Locale)

variable {L : Locale}

/-! ## Units -/

theorem unit_written (hL : LocaleOk L) {u : WordUnit} (h : UnitG L u) : ∃ c s, written L (.unit u) = '$' :: c :: s := by
  obtain ⟨c, s, h1, _, _⟩ := (h.rt hL).1 false 0 []
  exact ⟨c, s, by simpa [written] using h1⟩

/-- An expansion is read by every parser that is deep enough for the text. -/
theorem special_unit (hL : LocaleOk L) {u : WordUnit} (h : UnitG L u) (b r : List Char) {m : Nat}
    (hm : (written L (.unit u) ++ r).length + 1 < m) :
    (parser L m).special true ⟨b, written L (.unit u) ++ r⟩ = some (some u, ⟨(written L (.unit u)).reverse ++ b, r⟩) := by
  obtain ⟨c, s, h1, _, h3⟩ := (h.rt hL).1 false 0 []
  have hw : written L (.unit u) = '$' :: c :: s := by simpa [written] using h1
  rw [hw] at hm ⊢
  obtain ⟨m0, h4⟩ := h3 b r true
  have hA := parser_agree hL.newline (('$' :: c :: s ++ r).length + 1) hm (show _ < m + m0 by omega)
  rw [hA.special _ _ (by simp)]
  exact h4 _ (by omega)

theorem special_dollar' (b : List Char) {r : List Char} (hl : lineCont r = r) (h : ∀ d ∈ r.head?, startsParam d = false) {m : Nat} (hm : 0 < m) :
    (parser L m).special true ⟨b, '$' :: r⟩ = some (none, ⟨b, '$' :: r⟩) := by
  obtain ⟨m, rfl⟩ : ∃ k, m = k + 1 := ⟨m - 1, by omega⟩
  rw [special_eq]
  exact special_dollar _ _ _ _ hl h

theorem backquote_plain (bsdq : Bool) {s : List Char} (h1 : '`' ∉ s) (h2 : '\\' ∉ s) (acc b r : List Char) :
    backquote bsdq acc b (s ++ '`' :: r) = some (acc ++ s, ⟨'`' :: s.reverse ++ b, r⟩) := by
  induction s generalizing acc b with
  | nil => simp [backquote]
  | cons c s ih =>
    have c1 : c ≠ '`' := fun e => h1 (by simp [e])
    have c2 : c ≠ '\\' := fun e => h2 (by simp [e])
    rw [List.cons_append, backquote]
    · rw [ih (fun k => h1 (by simp [k])) fun k => h2 (by simp [k])]
      simp
    · exact fun _ e => absurd e c2
    · exact fun e => absurd e c1
    · exact fun e => absurd e c2
    · exact fun _ _ e => absurd e c2

theorem special_backquotes (b : List Char) {s : List Char} (h1 : '`' ∉ s) (h2 : '\\' ∉ s) (r : List Char) {m : Nat} (hm : 0 < m) :
    (parser L m).special true ⟨b, '`' :: s ++ '`' :: r⟩ =
      some (some (.cmdsub (.unparsed s)), ⟨('`' :: s ++ ['`']).reverse ++ b, r⟩) := by
  obtain ⟨m, rfl⟩ : ∃ k, m = k + 1 := ⟨m - 1, by omega⟩
  rw [special_eq, List.cons_append]
  simp only [special]
  rw [backquote_plain true h1 h2]
  simp

/-! ## Lines -/

/-- What the text of a line and its newline begins with. -/
theorem line_start (hL : LocaleOk L) {is : List Item} (h : Line L is) (hc : is.head? ≠ some .continuation) (r : List Char) :
    lineCont (is.flatMap (written L) ++ '\n' :: r) = is.flatMap (written L) ++ '\n' :: r := by
  cases h with
  | nil => exact lineCont_id (by decide)
  | char h1 _ => exact lineCont_id (by rintro rfl; simp at h1)
  | backslash h1 _ => exact lineCont_bs_id h1
  | continuation _ => simp at hc
  | dollar _ _ _ => exact lineCont_id (by decide)
  | unit h1 _ =>
    obtain ⟨c, s, hw⟩ := unit_written hL h1
    rw [List.flatMap_cons, hw]
    exact lineCont_id (by decide)
  | backquotes _ _ _ => exact lineCont_id (by decide)

theorem line_dollar (hL : LocaleOk L) {is : List Item} (h : Line L is)
    (hc : ∀ c ∈ (is.flatMap (written L)).head?, ¬StartsExpansion c) (r : List Char) :
    ∀ d ∈ (is.flatMap (written L) ++ '\n' :: r).head?, startsParam d = false := by
  intro d hd
  cases hw : is.flatMap (written L) with
  | nil =>
    rw [hw] at hd
    simp at hd
    subst hd
    decide
  | cons c s =>
    rw [hw] at hd hc
    simp at hd
    subst hd
    rw [← Bool.not_eq_true, Grammar.startsParam_iff]
    exact hc c (by simp)

theorem stringLoop_line (hL : LocaleOk L) {is : List Item} (h : Line L is) {m : Nat} (k : Nat) (acc b r : List Char)
    (hk : (is.flatMap (written L)).length < k) (hm : (is.flatMap (written L) ++ '\n' :: r).length + 1 < m) :
    ∃ b', stringLoop (parser L m).special true true k acc ⟨b, is.flatMap (written L) ++ '\n' :: r⟩ =
      some (wordOf acc (is ++ [.char '\n']), ⟨'\n' :: b', r⟩) ∧ b.length ≤ b'.length := by
  induction h generalizing k acc b with
  | nil =>
    obtain ⟨k, rfl⟩ : ∃ j, k = j + 1 := ⟨k - 1, by omega⟩
    exact ⟨b, by simp [stringLoop, lineCont, wordOf], Nat.le_refl _⟩
  | @char c is h1 h ih =>
    obtain ⟨k, rfl⟩ : ∃ j, k = j + 1 := ⟨k - 1, by omega⟩
    simp only [List.flatMap_cons, written, List.length_append, List.length_cons, List.length_nil] at hk hm
    simp at h1
    obtain ⟨b', e1, e2⟩ := ih k (acc ++ [c]) (c :: b) (by omega) (by simp only [List.length_append, List.length_cons]; omega)
    refine ⟨b', ?_, by simp at e2; omega⟩
    simp only [List.flatMap_cons, written, List.cons_append, List.nil_append]
    rw [stringLoop, lineCont_id h1.1]
    simp only
    rw [if_neg (by simp [h1]), if_neg (by simp [h1]), if_neg (by simp [h1]), e1]
    rfl
  | @backslash c is h1 h ih =>
    obtain ⟨k, rfl⟩ : ∃ j, k = j + 1 := ⟨k - 1, by omega⟩
    simp only [List.flatMap_cons, written, List.length_append, List.length_cons, List.length_nil] at hk hm
    obtain ⟨b', e1, e2⟩ := ih k (acc ++ ['\\', c]) (c :: '\\' :: b) (by omega) (by simp only [List.length_append, List.length_cons]; omega)
    refine ⟨b', ?_, by simp at e2; omega⟩
    simp only [List.flatMap_cons, written, List.cons_append, List.nil_append]
    rw [stringLoop, lineCont_bs_id h1]
    simp only
    rw [if_pos (by simp), e1]
    rfl
  | @continuation is h ih =>
    obtain ⟨k, rfl⟩ : ∃ j, k = j + 1 := ⟨k - 1, by omega⟩
    simp only [List.flatMap_cons, written, List.length_append, List.length_cons, List.length_nil] at hk hm
    obtain ⟨b', e1, e2⟩ := ih (k + 1) acc b (by omega) (by simp only [List.length_append, List.length_cons]; omega)
    refine ⟨b', ?_, e2⟩
    simp only [List.flatMap_cons, written, List.cons_append, List.nil_append]
    rw [stringLoop] at e1 ⊢
    rw [lineCont_bs, e1]
    rfl
  | @dollar is h1 h2 h ih =>
    obtain ⟨k, rfl⟩ : ∃ j, k = j + 1 := ⟨k - 1, by omega⟩
    simp only [List.flatMap_cons, written, List.length_append, List.length_cons, List.length_nil] at hk hm
    obtain ⟨b', e1, e2⟩ := ih k ['$'] ('$' :: b) (by omega) (by simp only [List.length_append, List.length_cons]; omega)
    refine ⟨b', ?_, by simp at e2; omega⟩
    simp only [List.flatMap_cons, written, List.cons_append, List.nil_append]
    rw [stringLoop, lineCont_id (by decide)]
    simp only
    rw [if_neg (by simp), if_neg (by simp), if_pos (by simp),
      special_dollar' b (line_start hL h h2 r) (line_dollar hL h h1 r) (by omega)]
    simp only
    rw [e1]
    rfl
  | @unit u is h1 h ih =>
    obtain ⟨k, rfl⟩ : ∃ j, k = j + 1 := ⟨k - 1, by omega⟩
    obtain ⟨c, s, hw⟩ := unit_written hL h1
    have hs := special_unit hL h1 b (is.flatMap (written L) ++ '\n' :: r) (m := m) (by simpa [Nat.add_assoc] using hm)
    rw [List.flatMap_cons] at hk hm ⊢
    rw [List.append_assoc] at hm ⊢
    have hk' : (is.flatMap (written L)).length < k := by
      rw [List.length_append, hw] at hk
      simp at hk ⊢
      omega
    obtain ⟨b', e1, e2⟩ := ih k [] ((written L (.unit u)).reverse ++ b) hk' (by rw [List.length_append, hw] at hm; simp at hm ⊢; omega)
    refine ⟨b', ?_, by simp at e2; omega⟩
    rw [hw] at hs e1 ⊢
    rw [List.cons_append] at hs ⊢
    rw [stringLoop, lineCont_id (by decide)]
    simp only
    rw [if_neg (by simp), if_neg (by simp), if_pos (by simp), hs]
    simp only
    rw [e1]
    rfl
  | @backquotes s is h1 h2 h ih =>
    obtain ⟨k, rfl⟩ : ∃ j, k = j + 1 := ⟨k - 1, by omega⟩
    simp only [List.flatMap_cons, written, List.length_append, List.length_cons, List.length_nil] at hk hm
    obtain ⟨b', e1, e2⟩ := ih k [] (('`' :: s ++ ['`']).reverse ++ b) (by omega) (by simp only [List.length_append, List.length_cons]; omega)
    refine ⟨b', ?_, by simp at e2; omega⟩
    have hs := special_backquotes (L := L) b h1 h2 (is.flatMap (written L) ++ '\n' :: r) (m := m) (by omega)
    rw [show (Item.backquotes s :: is).flatMap (written L) ++ '\n' :: r = '`' :: s ++ '`' :: (is.flatMap (written L) ++ '\n' :: r) by simp [written]]
    rw [List.cons_append] at hs ⊢
    rw [stringLoop, lineCont_id (by decide)]
    simp only
    rw [if_neg (by simp), if_neg (by simp), if_pos (by simp), hs]
    simp only
    rw [e1]
    rfl

/-! ## Tabs -/

theorem untab_items (hL : LocaleOk L) (tabs : Bool) {is : List Item} (h : Line L is) (r : List Char) :
    Line L (untabItems tabs is) ∧ untab tabs (is.flatMap (written L) ++ '\n' :: r) = (untabItems tabs is).flatMap (written L) ++ '\n' :: r := by
  cases tabs with
  | false => exact ⟨h, rfl⟩
  | true =>
    simp only [untabItems, untab, if_true]
    induction h with
    | nil => exact ⟨.nil, by simp⟩
    | @char c is h1 h ih =>
      by_cases hc : c = '\t'
      · subst hc
        simpa [List.dropWhile_cons, written] using ih
      · refine ⟨?_, by simp [hc, written]⟩
        rw [List.dropWhile_cons, if_neg (by simp [hc])]
        exact .char h1 h
    | backslash h1 h _ => exact ⟨.backslash h1 h, by simp [written]⟩
    | continuation h _ => exact ⟨.continuation h, by simp [written]⟩
    | dollar h1 h2 h _ => exact ⟨.dollar h1 h2 h, by simp [written]⟩
    | @unit u is h1 h _ =>
      obtain ⟨c, s, hw⟩ := unit_written hL h1
      refine ⟨.unit h1 h, ?_⟩
      rw [List.flatMap_cons, hw]
      simp [hw]
    | backquotes h1 h2 h _ => exact ⟨.backquotes h1 h2 h, by simp [written]⟩

theorem take_written (is : List Item) (r : List Char) :
    (is.flatMap (written L) ++ '\n' :: r).takeWhile (· ≠ '\n') = (is.flatMap (written L)).takeWhile (· ≠ '\n') := by
  generalize is.flatMap (written L) = s
  induction s with
  | nil => simp
  | cons c s ih =>
    simp only [List.cons_append, List.takeWhile_cons]
    split
    · rw [ih]
    · rfl

/-! ## The contents -/

theorem expandingLoop_reads (hL : LocaleOk L) {eoc : List Char} (he : '\n' ∉ eoc) {tabs : Bool} {lines : List (List Item)} {last rest : List Char}
    (hl : ∀ l ∈ lines, Line L l) (hd : ∀ l ∈ lines, untab tabs ((l.flatMap (written L)).takeWhile (· ≠ '\n')) ≠ eoc)
    (hc : Closes tabs eoc last rest) {m : Nat} (n : Nat) (b : List Char)
    (hn : (lines.flatMap (fun l => l.flatMap (written L) ++ ['\n']) ++ last).length < n)
    (hm : (lines.flatMap (fun l => l.flatMap (written L) ++ ['\n']) ++ last).length + 1 < m) :
    ∃ b', expandingLoop (parser L m).special eoc tabs n ⟨b, lines.flatMap (fun l => l.flatMap (written L) ++ ['\n']) ++ last⟩ =
      some (lines.flatMap (fun l => wordOf [] (untabItems tabs l ++ [.char '\n'])), ⟨b', rest⟩) := by
  induction lines generalizing n b with
  | nil =>
    obtain ⟨n, rfl⟩ : ∃ k, n = k + 1 := ⟨n - 1, by omega⟩
    obtain ⟨b', hb⟩ := isEnd_true b hc
    refine ⟨b', ?_⟩
    simp only [List.flatMap_nil, List.nil_append, expandingLoop]
    rw [hb]
  | cons l ls ih =>
    obtain ⟨n, rfl⟩ : ∃ k, n = k + 1 := ⟨n - 1, by omega⟩
    have hx : List.flatMap (fun l => l.flatMap (written L) ++ ['\n']) (l :: ls) ++ last =
      l.flatMap (written L) ++ '\n' :: (ls.flatMap (fun l => l.flatMap (written L) ++ ['\n']) ++ last) := by simp
    rw [hx] at hn hm ⊢
    generalize hr : ls.flatMap (fun l => l.flatMap (written L) ++ ['\n']) ++ last = r at *
    obtain ⟨b1, hb1⟩ := isEnd_false he tabs b (text := l.flatMap (written L) ++ '\n' :: r) (by simp)
      (by rw [take_written]; exact hd l (by simp))
    obtain ⟨hu1, hu2⟩ := untab_items hL tabs (hl l (by simp)) r
    have hlen : (untab tabs (l.flatMap (written L) ++ '\n' :: r)).length ≤ (l.flatMap (written L) ++ '\n' :: r).length := by
      unfold untab
      split
      · exact (List.dropWhile_suffix _).length_le
      · exact Nat.le_refl _
    rw [hu2] at hb1 hlen
    obtain ⟨b2, hb2, hb2'⟩ := stringLoop_line hL hu1 (((untabItems tabs l).flatMap (written L) ++ '\n' :: r).length + 1) [] b1 r (m := m)
      (by simp; omega) (by omega)
    simp only [List.length_append, List.length_cons] at hn hm
    obtain ⟨b3, hb3⟩ := ih (fun k hk => hl k (by simp [hk])) (fun k hk => hd k (by simp [hk])) n ('\n' :: b2) (by omega) (by omega)
    refine ⟨b3, ?_⟩
    rw [expandingLoop, hb1]
    simp only
    rw [hb2]
    simp only
    rw [if_neg (by simp; omega), hb3]
    simp

end Yash.HereDoc
