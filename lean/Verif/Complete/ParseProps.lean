import Verif.Complete.ParseLemmas
import Verif.Complete.Props
/-!
# What is completed is found out correctly
-/
set_option autoImplicit false

namespace Yash.Complete

open Expand (Locale Env)
open Spec (Open Typed CommandWord Before Blanks)
open Syntax (isTokenDelimiter isDigitChar isNameChar)

/-! ## The beginning of a word -/

theorem typed_quoted {L : Locale} {o : Open} {t v : List Char} (h : Typed L o t v) (ho : o ≠ .nothing) :
    ∃ q ∈ t, q = '\\' ∨ q = '\'' ∨ q = '"' := by
  induction h with
  | start => simp at ho
  | char => simp at ho
  | escaped => simp at ho
  | closeSingle => simp at ho
  | closeDouble => simp at ho
  | backslash => exact ⟨_, List.mem_append_right _ (List.mem_singleton.2 rfl), by simp⟩
  | openSingle => exact ⟨_, List.mem_append_right _ (List.mem_singleton.2 rfl), by simp⟩
  | openDouble => exact ⟨_, List.mem_append_right _ (List.mem_singleton.2 rfl), by simp⟩
  | doubleBackslash => exact ⟨_, List.mem_append_right _ (List.mem_singleton.2 rfl), by simp⟩
  | inSingle t v c _ _ ih | inDouble t v c _ _ ih | escapedDouble t v c _ _ ih | keptDouble t v c _ _ _ ih =>
    obtain ⟨q, hq, h⟩ := ih (by simp)
    exact ⟨q, List.mem_append_left _ hq, h⟩

/-- Before the first quotation of a word there is no delimiter. -/
theorem typed_plain {L : Locale} (hL : L.Ok) {o : Open} {t v : List Char} (h : Typed L o t v) :
    ∀ k d r, t = k ++ d :: r → (∀ q ∈ k, q ≠ '\\' ∧ q ≠ '\'' ∧ q ≠ '"') → isTokenDelimiter L d = false := by
  obtain ⟨d1, d2, d3⟩ := delim_punct hL
  have key : ∀ {o : Open} {t v : List Char} (c : Char), Typed L o t v → (o = .nothing → isTokenDelimiter L c = false) →
      (∀ k d r, t = k ++ d :: r → (∀ q ∈ k, q ≠ '\\' ∧ q ≠ '\'' ∧ q ≠ '"') → isTokenDelimiter L d = false) →
      ∀ k d r, t ++ [c] = k ++ d :: r → (∀ q ∈ k, q ≠ '\\' ∧ q ≠ '\'' ∧ q ≠ '"') → isTokenDelimiter L d = false := by
    intro o t v c ht hc ih k d r he hk
    rcases List.eq_nil_or_concat r with rfl | ⟨r', x, rfl⟩
    · have := List.append_inj' he rfl
      obtain ⟨rfl, h2⟩ := this
      simp only [List.cons.injEq, and_true] at h2
      subst h2
      by_cases ho : o = .nothing
      · exact hc ho
      · obtain ⟨q, hq, h⟩ := typed_quoted ht ho
        have := hk q hq
        simp_all
    · rw [List.concat_eq_append, ← List.cons_append, ← List.append_assoc] at he
      exact ih k d r' (List.append_inj' he rfl).1 hk
  induction h with
  | start => intro k d r h; simp at h
  | char t v c ht hc hb _ ih =>
    refine key c ht (fun _ => ?_) ih
    simp at hc
    simp [isTokenDelimiter, hc, hb]
  | backslash t v ht ih => exact key _ ht (fun _ => d2) ih
  | openSingle t v ht ih => exact key _ ht (fun _ => d1) ih
  | openDouble t v ht ih => exact key _ ht (fun _ => d3) ih
  | escaped t v c ht _ ih | inSingle t v c ht _ ih | inDouble t v c ht _ ih | escapedDouble t v c ht _ ih
  | keptDouble t v c ht _ _ ih => exact key c ht (by simp) ih
  | closeSingle t v ht ih | closeDouble t v ht ih | doubleBackslash t v ht ih => exact key _ ht (by simp) ih

theorem dropWhile_split (p : Char → Bool) (t y : List Char) (hy : ∀ c ∈ y.head?, p c = false) :
    (∃ d r, t = t.takeWhile p ++ d :: r ∧ (t ++ y).dropWhile p = d :: (r ++ y)) ∨ ((t ++ y).dropWhile p = y) := by
  induction t with
  | nil =>
    right
    cases y with
    | nil => rfl
    | cons c y => simp [hy c (by simp)]
  | cons c t ih =>
    by_cases hc : p c = true
    · simp only [List.takeWhile_cons, hc, if_true, List.cons_append, List.dropWhile_cons]
      rcases ih with ⟨d, r, h1, h2⟩ | h
      · left; exact ⟨d, r, by rw [← h1], h2⟩
      · right; exact h
    · left
      simp only [Bool.not_eq_true] at hc
      exact ⟨c, t, by simp [hc], by simp [hc]⟩

theorem mem_takeWhile {p : Char → Bool} {c : Char} : ∀ {l : List Char}, c ∈ l.takeWhile p → p c = true
  | a :: l, h => by
    rw [List.takeWhile_cons] at h
    split at h
    · rcases List.mem_cons.1 h with rfl | h
      · assumption
      · exact mem_takeWhile h
    · simp at h

/-- What can follow a word: nothing, a blank or a separator. -/
def Follows (L : Locale) (y : List Char) : Prop := ∀ c ∈ y.head?, L.blank c = true ∨ c ∈ ['\n', ';', '&', '|']

theorem digit_chars {c : Char} (h : isDigitChar c = true) : '0' ≤ c ∧ c ≤ '9' := by
  simpa [isDigitChar] using h

theorem digit_special {c : Char} (h : isDigitChar c = true) : c ∉ ['\\', '\'', '"', '\n', ';', '&', '|'] := by
  intro hc
  simp only [List.mem_cons, List.not_mem_nil, or_false] at hc
  rcases hc with rfl | rfl | rfl | rfl | rfl | rfl | rfl <;> revert h <;> decide

theorem not_redirect {L : Locale} (hL : L.Ok) (hB : Blanks L) {o : Open} {t v : List Char} (h : Typed L o t v) (y : List Char)
    (hy : Follows L y) : atRedirect (t ++ y) = false := by
  have hyd : ∀ c ∈ y.head?, isDigitChar c = false := by
    intro c hc
    cases hd : isDigitChar c with
    | false => rfl
    | true =>
      rcases hy c hc with h1 | h1
      · rw [hB.ascii c (.inl (digit_chars hd))] at h1; cases h1
      · have := digit_special hd
        simp at this h1
        rcases h1 with rfl | rfl | rfl | rfl <;> simp at this
  unfold atRedirect
  rcases dropWhile_split isDigitChar t y hyd with ⟨d, r, h1, h2⟩ | h2
  · rw [h2]
    have := typed_plain hL h _ d r h1 fun q hq => by
      have := digit_special (mem_takeWhile hq)
      simp at this
      simp [this]
    simp [isTokenDelimiter] at this
    simp [this]
  · rw [h2]
    cases y with
    | nil => rfl
    | cons c y =>
      have := hy c (by simp)
      have h1 := hL.punct_blank '<' (by decide)
      have h3 := hL.punct_blank '>' (by decide)
      simp only [Bool.or_eq_false_iff, decide_eq_false_iff_not]
      constructor
      · rintro rfl; simp [h1] at this
      · rintro rfl; simp [h3] at this

theorem name_special {L : Locale} (hL : L.Ok) {c : Char} (h : isNameChar L c = true) :
    c ∉ ['\\', '\'', '"', '\n', ';', '&', '|', '='] ∧ L.blank c = false := by
  constructor
  · intro hc
    simp only [isNameChar, Bool.or_eq_true, beq_iff_eq] at h
    rcases h with rfl | h
    · simp at hc
    · have h2 := hL.alnum_special c (by
        simp only [List.mem_cons, List.not_mem_nil, or_false] at hc
        rcases hc with rfl | rfl | rfl | rfl | rfl | rfl | rfl | rfl <;> decide)
      rw [h] at h2; cases h2
  · simp only [isNameChar, Bool.or_eq_true, beq_iff_eq] at h
    rcases h with rfl | h
    · exact hL.punct_blank '_' (by decide)
    · exact hL.alnum_blank c h

theorem not_assignment {L : Locale} (hL : L.Ok) {t : List Char}
    (hn : ∀ n r, t = n ++ '=' :: r → ∃ c ∈ n, c ≠ '_' ∧ L.alnum c = false) (y : List Char)
    (hy : Follows L y) : atAssignment L (t ++ y) = false := by
  have hyd : ∀ c ∈ y.head?, isNameChar L c = false := by
    intro c hc
    cases hd : isNameChar L c with
    | false => rfl
    | true =>
      have h2 := name_special hL hd
      rcases hy c hc with h1 | h1
      · rw [h2.2] at h1; cases h1
      · have h2 := h2.1
        simp at h2 h1
        rcases h1 with rfl | rfl | rfl | rfl <;> simp at h2
  unfold atAssignment
  split
  · rfl
  · rename_i c r heq
    split
    · rfl
    rcases dropWhile_split (isNameChar L) t y hyd with ⟨d, r, h1, h2⟩ | h2
    · rw [h2]
      simp only [decide_eq_false_iff_not]
      rintro rfl
      obtain ⟨c, hc, h3, h4⟩ := hn _ _ h1
      have := mem_takeWhile hc
      simp [isNameChar, h3, h4] at this
    · rw [h2]
      cases y with
      | nil => rfl
      | cons c y =>
        have := hy c (by simp)
        have h1 := hL.punct_blank '=' (by decide)
        simp only [decide_eq_false_iff_not]
        rintro rfl; simp [h1] at this

theorem keyword_chars {posix : Bool} {k : List Char} (hk : k ∈ keywords posix) :
    (∀ q ∈ k, q ∈ ['{', '!', '}'] ∨ ('a' ≤ q ∧ q ≤ 'z')) ∧ k ∈ ["{", "!", "if", "do", "then", "else", "elif", "while", "until", "}",
      "fi", "done", "esac", "for", "case", "function"].map String.toList := by
  have h1 : ∀ k ∈ keywords false, ∀ q ∈ k, q ∈ ['{', '!', '}'] ∨ ('a' ≤ q ∧ q ≤ 'z') := by decide
  have h2 : keywords false = ["{", "!", "if", "do", "then", "else", "elif", "while", "until", "}",
      "fi", "done", "esac", "for", "case", "function"].map String.toList := by decide
  have h3 : k ∈ keywords false := by
    cases posix
    · exact hk
    · simp only [keywords, if_true, List.append_nil] at hk
      exact List.mem_append_left _ hk
  exact ⟨h1 k h3, h2 ▸ h3⟩

theorem letter_quote {q : Char} (h : q ∈ ['{', '!', '}'] ∨ ('a' ≤ q ∧ q ≤ 'z')) :
    q ∉ ['\\', '\'', '"', '\n', ';', '&', '|', '<', '>', '(', ')'] := by
  intro hc
  simp only [List.mem_cons, List.not_mem_nil, or_false] at hc
  rcases hc with rfl | rfl | rfl | rfl | rfl | rfl | rfl | rfl | rfl | rfl | rfl <;> revert h <;> decide

theorem keyword_delim {L : Locale} (hL : L.Ok) (hB : Blanks L) {q : Char} (h : q ∈ ['{', '!', '}'] ∨ ('a' ≤ q ∧ q ≤ 'z')) :
    isTokenDelimiter L q = false := by
  have h1 := letter_quote h
  have h2 : L.blank q = false := by
    rcases h with h | h
    · refine hL.punct_blank q ?_
      simp only [List.mem_cons, List.not_mem_nil, or_false] at h
      rcases h with rfl | rfl | rfl <;> decide
    · exact hB.ascii q (.inr h)
  simp at h1
  simp [isTokenDelimiter, h1, h2]

theorem follows_delim {L : Locale} {c : Char} (h : L.blank c = true ∨ c ∈ ['\n', ';', '&', '|']) : isTokenDelimiter L c = true := by
  simp only [List.mem_cons, List.not_mem_nil, or_false] at h
  simp only [isTokenDelimiter, Bool.or_eq_true, beq_iff_eq]
  grind

/-- A keyword is only found where it is the whole word. -/
theorem no_keyword {L : Locale} (hL : L.Ok) (hB : Blanks L) {o : Open} {t v : List Char} (h : Typed L o t v) (y : List Char)
    (hy : Follows L y) (posix : Bool) (hk : y ≠ [] → t ∉ keywords posix) : (keywords posix).any (hasToken L (t ++ y)) = false := by
  rw [List.any_eq_false]
  intro k hmem
  obtain ⟨hch, -⟩ := keyword_chars hmem
  unfold hasToken
  simp only [Bool.and_eq_true, not_and]
  intro hpre
  rw [List.isPrefixOf_iff_prefix] at hpre
  obtain ⟨z, hz⟩ := hpre
  rw [← hz, List.drop_left]
  cases z with
  | nil => simp
  | cons d z =>
    simp only [Bool.not_eq_true]
    rcases List.append_eq_append_iff.1 hz with ⟨a, ha, hb⟩ | ⟨a, ha, hb⟩
    · cases a with
      | nil =>
        simp only [List.nil_append] at hb
        simp only [List.append_nil] at ha
        exact absurd (ha ▸ hmem) (hk (by simp [← hb]))
      | cons x a =>
        simp only [List.cons_append, List.cons.injEq] at hb
        obtain ⟨rfl, -⟩ := hb
        exact typed_plain hL h k d a ha fun q hq => by
          have := letter_quote (hch q hq)
          simp at this
          simp [this]
    · cases a with
      | nil =>
        simp only [List.nil_append] at hb
        simp only [List.append_nil] at ha
        exact absurd (ha ▸ hmem) (hk (by simp [hb]))
      | cons x a =>
        have hx : x ∈ k := by rw [ha]; simp
        have h1 := keyword_delim hL hB (hch x hx)
        have h2 := follows_delim (hy x (by rw [hb]; simp))
        rw [h1] at h2; cases h2

/-! ## Going through the line -/

section line
variable {σ : Type} {E : Env σ}

def modeOf (ws : List (List Char)) : Option (List (List Char)) := if ws = [] then none else some ws

theorem separator_blank {L : Locale} (hL : L.Ok) (hB : Blanks L) {c : Char} (h : c ∈ ['\n', ';', '&', '|']) :
    L.blank c = false ∧ isSeparator c = true ∧ isDigitChar c = false := by
  simp only [List.mem_cons, List.not_mem_nil, or_false] at h
  have h1 := hL.punct_blank ';' (by decide)
  have h2 := hL.punct_blank '&' (by decide)
  have h3 := hL.punct_blank '|' (by decide)
  have h4 := hB.newline
  rcases h with rfl | rfl | rfl | rfl <;> simp_all [isSeparator, isDigitChar] <;> decide

theorem typed_head {L : Locale} (hL : L.Ok) {o : Open} {t v : List Char} (h : Typed L o t v) {c : Char} {r : List Char}
    (ht : t = c :: r) : L.blank c = false ∧ isSeparator c = false ∧ c ≠ '(' ∧ c ≠ '~' := by
  have h1 := typed_plain hL h [] c r ht (by simp)
  have h2 := (typed_tilde h).1
  rw [ht] at h2
  simp [isTokenDelimiter] at h1
  simp at h2
  simp [isSeparator, h1, h2]

/-- Blanks are skipped. -/
theorem parse_blank (len m : Nat) (mode : Option (List (List Char))) (s : σ) (c : Char) (x : List Char)
    (hc : E.locale.blank c = true) : parseFrom E len m mode s (c :: x) = parseFrom E len m mode s x := by
  cases m with
  | zero => rfl
  | succ m =>
    rw [parseFrom.eq_def, parseFrom.eq_def E len (m + 1) mode s x]
    simp only [List.dropWhile_cons, hc, if_true]

/-- A separator begins a new command. -/
theorem parse_separator (hL : E.locale.Ok) (hB : Blanks E.locale) (len m : Nat) (s : σ) (c : Char) (x : List Char) (hc : c ∈ ['\n', ';', '&', '|']) :
    parseFrom E len (m + 1) none s (c :: x) = parseFrom E len m none s x := by
  obtain ⟨h1, h2, -⟩ := separator_blank hL hB hc
  rw [parseFrom]
  simp [List.dropWhile_cons, h1, h2]

theorem parse_end (hL : E.locale.Ok) (hB : Blanks E.locale) (len m : Nat) (ws : List (List Char)) (s : σ) (c : Char) (x : List Char) (hc : c ∈ ['\n', ';', '&', '|']) :
    parseFrom E len (m + 2) (some ws) s (c :: x) = parseFrom E len m none s x := by
  obtain ⟨h1, h2, h3⟩ := separator_blank hL hB hc
  have hr : atRedirect (c :: x) = false := by
    simp only [List.mem_cons, List.not_mem_nil, or_false] at hc
    simp only [atRedirect, List.dropWhile_cons, h3]
    rcases hc with rfl | rfl | rfl | rfl <;> simp
  rw [← parse_separator hL hB len m s c x hc, show m + 2 = (m + 1) + 1 from rfl]
  conv => lhs; rw [parseFrom]
  simp only [List.dropWhile_cons, h1, hr, List.head?_cons, Option.any_some, h2, if_true, Bool.false_eq_true, if_false]

/-- The beginning of a command. -/
theorem parse_begin (hL : E.locale.Ok) (hB : Blanks E.locale) (len m : Nat) (s : σ) {o : Open} {t v : List Char} (h : Typed E.locale o t v) (y : List Char)
    (hy : Follows E.locale y) (hk : y ≠ [] → t ∉ keywords E.posix) (ht : t = [] → y = [])
    (hn : ∀ n r, t = n ++ '=' :: r → ∃ c ∈ n, c ≠ '_' ∧ E.locale.alnum c = false) :
    parseFrom E len (m + 1) none s (t ++ y) = parseFrom E len m (some []) s (t ++ y) := by
  have h1 := not_redirect hL hB h y hy
  have h2 := not_assignment hL hn y hy
  have h3 := no_keyword hL hB h y hy E.posix hk
  cases t with
  | nil => rw [ht rfl, parseFrom]; rfl
  | cons c r =>
    obtain ⟨a1, a2, a3, -⟩ := typed_head hL h rfl
    rw [parseFrom]
    simp only [List.cons_append] at h1 h2 h3 ⊢
    simp [List.dropWhile_cons, a1, a2, a3, h1, h2, h3]

/-- One word. -/
theorem parse_word (hL : E.locale.Ok) (hR : E.long.Ok) (hB : Blanks E.locale) (len m : Nat) (ws : List (List Char)) (s : σ) {t v : List Char} (h : Typed E.locale .nothing t v) (hne : t ≠ [])
    (c : Char) (x : List Char) (hc : E.locale.blank c = true ∨ c ∈ ['\n', ';', '&', '|']) :
    parseFrom E len (m + 1) (some ws) s (t ++ c :: x) = parseFrom E len m (some (ws ++ [v])) s (c :: x) := by
  have h1 := not_redirect hL hB h (c :: x) (by simpa [Follows] using hc)
  have h2 := scan_complete hL h c x (follows_delim hc)
  have h3 := typed_expand hL hR h hne s
  cases t with
  | nil => exact absurd rfl hne
  | cons d r =>
    obtain ⟨a1, a2, a3, a4⟩ := typed_head hL h rfl
    rw [parseFrom]
    simp only [List.cons_append] at h1 h2 ⊢
    simp [List.dropWhile_cons, a1, a2, a3, a4, h1, h2, h3]

/-- The text before the word leads to the place of the word. -/
theorem parse_before (hL : E.locale.Ok) (hR : E.long.Ok) (hB : Blanks E.locale) {ws : List (List Char)} {f : List Char} (h : Before E.locale ws f) (len : Nat) (s : σ) :
    ∀ x n, 2 * (f ++ x).length + 2 ≤ n → ∃ m, 2 * x.length + 2 ≤ m ∧
      parseFrom E len n none s (f ++ x) = parseFrom E len m (modeOf ws) s x := by
  have stepWord : ∀ (ws : List (List Char)) (t v : List Char) (c : Char) (x : List Char) (m : Nat), Typed E.locale .nothing t v →
      t ≠ [] → (ws = [] → CommandWord E.locale t) → (E.locale.blank c = true ∨ c ∈ ['\n', ';', '&', '|']) →
      2 * (t ++ c :: x).length + 2 ≤ m → ∃ m', 2 * x.length + 4 ≤ m' ∧
        parseFrom E len m (modeOf ws) s (t ++ c :: x) = parseFrom E len m' (some (ws ++ [v])) s (c :: x) := by
    intro ws t v c x m ht hne hcw hc hm
    have hlen : 0 < t.length := List.length_pos_iff.2 hne
    simp only [List.length_append, List.length_cons] at hm
    by_cases hw : ws = []
    · subst hw
      obtain ⟨hk, hn⟩ := hcw rfl
      obtain ⟨m', rfl⟩ : ∃ m', m = m' + 2 := ⟨m - 2, by omega⟩
      refine ⟨m', by omega, ?_⟩
      simp only [modeOf, if_true]
      rw [parse_begin hL hB len (m' + 1) s ht (c :: x) (by simpa [Follows] using hc)
        (fun _ hmem => hk (keyword_chars hmem).2) (fun h => absurd h hne) hn, parse_word hL hR hB len m' [] s ht hne c x hc]
    · obtain ⟨m', rfl⟩ : ∃ m', m = m' + 1 := ⟨m - 1, by omega⟩
      refine ⟨m', by omega, ?_⟩
      simp only [modeOf, if_neg hw]
      exact parse_word hL hR hB len m' ws s ht hne c x hc
  induction h with
  | start => intro x n hn; exact ⟨n, by simpa using hn, rfl⟩
  | blank ws f c _ hc ih =>
    intro x n hn
    obtain ⟨m, hm, he⟩ := ih (c :: x) n (by simpa using hn)
    refine ⟨m, by simp only [List.length_cons] at hm; omega, ?_⟩
    rw [List.append_assoc, List.singleton_append, he, parse_blank len m _ s c x hc]
  | separator ws f c _ hc ih =>
    intro x n hn
    obtain ⟨m, hm, he⟩ := ih (c :: x) n (by simpa using hn)
    simp only [List.length_cons] at hm
    rw [List.append_assoc, List.singleton_append, he]
    by_cases hw : ws = []
    · subst hw
      obtain ⟨m', rfl⟩ : ∃ m', m = m' + 1 := ⟨m - 1, by omega⟩
      exact ⟨m', by omega, parse_separator hL hB len m' s c x hc⟩
    · obtain ⟨m', rfl⟩ : ∃ m', m = m' + 2 := ⟨m - 2, by omega⟩
      refine ⟨m', by omega, ?_⟩
      simp only [modeOf, if_neg hw, if_true]
      exact parse_end hL hB len m' ws s c x hc
  | word ws f t v c _ ht hne hcw hc ih =>
    intro x n hn
    obtain ⟨m, hm, he⟩ := ih (t ++ c :: x) n (by simpa [List.append_assoc] using hn)
    obtain ⟨m', hm', he'⟩ := stepWord ws t v c x m ht hne hcw (.inl hc) hm
    refine ⟨m', by omega, ?_⟩
    have hmode : modeOf (ws ++ [v]) = some (ws ++ [v]) := by simp [modeOf]
    rw [hmode, ← parse_blank len m' _ s c x hc, ← he', ← he]
    simp
  | lastWord ws f t v c _ ht hne hcw hc ih =>
    intro x n hn
    obtain ⟨m, hm, he⟩ := ih (t ++ c :: x) n (by simpa [List.append_assoc] using hn)
    obtain ⟨m', hm', he'⟩ := stepWord ws t v c x m ht hne hcw (.inr hc) hm
    obtain ⟨m2, rfl⟩ : ∃ m2, m' = m2 + 2 := ⟨m' - 2, by omega⟩
    refine ⟨m2, by omega, ?_⟩
    rw [modeOf, if_pos rfl, ← parse_end hL hB len m2 (ws ++ [v]) s c x hc, ← he', ← he]
    simp

/-- **The word on which the cursor is.**  The line up to the cursor is a word that has been typed, as a command or an argument of
a simple command, behind other words and commands without expansions: completion finds out where the word begins, what is open
at its end and what it stands for so far, whether it is the name of the command, and what the words before it stand for. -/
theorem context_found (hL : E.locale.Ok) (hR : E.long.Ok) (hB : Blanks E.locale) (s : σ) {ws : List (List Char)} {f t v : List Char} {o : Open} (hf : Before E.locale ws f)
    (ht : Typed E.locale o t v)
    (hcmd : ws = [] → ∀ n r, t = n ++ '=' :: r → ∃ c ∈ n, c ≠ '_' ∧ E.locale.alnum c = false) (after : List Char) :
    ∃ c, getContext E s ⟨f ++ t ++ after, (f ++ t).length⟩ = some (c, ws) ∧
      OnWord E.locale c ⟨f ++ t ++ after, (f ++ t).length⟩ f t v after o ∧ c.substsrc = false ∧
      c.type = if ws = [] then .command else .argument := by
  have htake : (f ++ t ++ after).take (f ++ t).length = f ++ t := List.take_left ..
  obtain ⟨m, hm, he⟩ := parse_before hL hR hB hf (f ++ t).length s t (2 * (f ++ t).length + 2) (Nat.le_refl _)
  obtain ⟨p, h1, h2, h3, h4⟩ := expand_typed E s ht
  have hsc := scan_last hL ht
  have hlast : ∀ n, parseFrom E (f ++ t).length (n + 1) (some ws) s t =
      some ⟨quoteOf o, if ws.isEmpty then .command else .argument, ws, p, f.length⟩ := by
    intro n
    have hr := not_redirect hL hB ht [] (by simp [Follows])
    rw [List.append_nil] at hr
    have hd : t.dropWhile E.locale.blank = t := by
      cases t with
      | nil => rfl
      | cons c r => simp [List.dropWhile_cons, (typed_head hL ht rfl).1]
    have hs : t.head?.any isSeparator = false ∧ t.head? ≠ some '(' ∧ t.head? ≠ some '~' := by
      cases t with
      | nil => simp
      | cons c r =>
        obtain ⟨_, a2, a3, a4⟩ := typed_head hL ht rfl
        simp [a2, a3, a4]
    rw [parseFrom]
    simp only [hd, hr, hs.1, hs.2.1, hs.2.2, hsc, h1, Bool.false_eq_true, if_false, decide_false, Bool.or_self]
    rw [show (f ++ t).length - t.length = f.length by simp]
    cases o <;> rfl
  have hfound : parseFrom E (f ++ t).length (2 * (f ++ t).length + 2) none s (f ++ t) =
      some ⟨quoteOf o, if ws.isEmpty then .command else .argument, ws, p, f.length⟩ := by
    rw [he]
    obtain ⟨m', rfl⟩ : ∃ m', m = m' + 2 := ⟨m - 2, by omega⟩
    by_cases hw : ws = []
    · subst hw
      simp only [modeOf, if_true]
      have := parse_begin hL hB (f ++ t).length (m' + 1) s ht [] (by simp [Follows]) (by simp) (by simp) (hcmd rfl)
      simp only [List.append_nil] at this
      rw [this]
      exact hlast m'
    · simp only [modeOf, if_neg hw]
      exact hlast (m' + 1)
  refine ⟨{
      quote := quoteOf o
      type := if ws.isEmpty then .command else .argument
      ebraced := false
      vbraced := false
      quoted := false
      src := v
      srcindex := f.length
      origindex := (f ++ t).length
      substsrc := false }, ?_, ⟨rfl, ht, ?_, rfl, rfl, rfl, ?_, rfl, rfl, rfl⟩, rfl, ?_⟩
  · simp only [getContext, htake, hfound, h3, Bool.and_false, Bool.false_eq_true, if_false, h2, h4]
  · cases o <;> rfl
  · dsimp only; split <;> simp
  · cases ws <;> rfl

/-- **Completing a word of a line.**  In a line of words without expansions, whatever it has been made of, completing the last word
with the only candidate puts a word for the candidate in its place.  The line is one of the same kind then, in which the
candidate is one more word before the cursor: the user can go on typing and completing. -/
theorem complete_in_line (hL : E.locale.Ok) (hR : E.long.Ok) (hB : Blanks E.locale) (hsp : BlankIsSpace E.locale)
    (hspace : E.locale.blank ' ' = true) (st : σ) (find : Finder) (s : State) {ws : List (List Char)} {f t v after : List Char}
    {o : Open} {cand : Cand} (hline : s.buf = ⟨f ++ t ++ after, (f ++ t).length⟩) (hf : Before E.locale ws f)
    (ht : Typed E.locale o t v)
    (hcmd : ws = [] → ∀ n r, t = n ++ '=' :: r → ∃ c ∈ n, c ≠ '_' ∧ E.locale.alnum c = false)
    (hfind : ∀ c, getContext E st s.buf = some (c, ws) → find s.buf = (c, [cand]))
    (hpre : v <+: cand.value) (hterm : cand.terminate = true) (hempty : o = .backslash → cand.value ≠ []) :
    ∃ t', complete find (lecrNormal E.locale) s = some ⟨⟨f ++ t' ++ ' ' :: after, (f ++ t').length + 1⟩, none⟩ ∧
      Expand.WordText E t' cand.value ∧ (ws = [] → NotAssignment t → NotAssignment t') ∧
      ((ws = [] → CommandWord E.locale t') → Before E.locale (ws ++ [cand.value]) (f ++ t' ++ [' '])) := by
  obtain ⟨c, h1, h2, h3, h4⟩ := context_found hL hR hB st hf ht hcmd after
  rw [← hline] at h1 h2
  obtain ⟨t', a, b, d, e⟩ := one_candidate_typed (E := E) hsp find s (hfind c h1) h2 h3 hpre hterm hempty
  exact ⟨t', a, typed_word hL hR b d, fun hw => e (by rw [h4, if_pos hw]), fun hc => .word ws f t' _ ' ' hf b d hc hspace⟩

end line

end Yash.Complete
