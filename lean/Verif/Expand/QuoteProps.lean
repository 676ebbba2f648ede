import Verif.Expand.Quote
import Verif.Util.ListLemmas
/-! # Properties C11 and C13: quoting and escaping round trips -/
set_option autoImplicit false

namespace Yash.Expand

/-! ## C11 -/

theorem addSq_append (a t : List Char) (h : '\'' ∉ a) :
    addSq false (a ++ '\'' :: t) = (a, '\'' :: t) := by
  induction a with
  | nil => simp [addSq]
  | cons c a ih =>
    have h1 : c ≠ '\'' := fun hc => h (by simp [hc])
    have h2 : '\'' ∉ a := fun hc => h (by simp [hc])
    simp [addSq, h1, ih h2]

theorem unquoteLoop_plain (buf a t : List Char)
    (h : ∀ c ∈ a, c ≠ '\'' ∧ c ≠ '"' ∧ c ≠ '\\') :
    unquoteLoop false buf (a ++ t) = unquoteLoop false (buf ++ a) t := by
  induction a generalizing buf with
  | nil => simp
  | cons c a ih =>
    obtain ⟨h1, h2, h3⟩ := h c (by simp)
    rw [List.cons_append]
    conv => lhs; unfold unquoteLoop
    simp only [h1, h2, h3, if_false, false_and]
    rw [ih _ (fun d hd => h d (by simp [hd]))]
    simp

theorem unquoteLoop_sq (buf a t : List Char) (h : '\'' ∉ a) :
    unquoteLoop false buf ('\'' :: a ++ '\'' :: t) = unquoteLoop false (buf ++ a) t := by
  rw [List.cons_append]
  conv => lhs; unfold unquoteLoop
  simp only [and_self, if_true]
  rw [addSq_append a t h]

theorem unquoteLoop_bs (buf t : List Char) :
    unquoteLoop false buf ('\\' :: '\'' :: t) = unquoteLoop false (buf ++ ['\'']) t := by
  conv => lhs; unfold unquoteLoop
  simp

theorem not_mem_takeWhile_ne (c : Char) (s : List Char) : c ∉ s.takeWhile (· ≠ c) := by
  intro h
  have := Util.of_mem_takeWhile h
  simp at this

theorem dropWhile_ne_append (c : Char) (s : List Char) :
    s.takeWhile (· ≠ c) ++ s.dropWhile (· ≠ c) = s := List.takeWhile_append_dropWhile

/-- Quotation marks and the backslash are not alphanumeric. -/
theorem safe_not_quote {L : Locale} (hL : L.Ok) {c : Char} (h : isSafe L c = true) :
    c ≠ '\'' ∧ c ≠ '"' ∧ c ≠ '\\' := by
  refine ⟨?_, ?_, ?_⟩ <;> rintro rfl <;>
    simp [isSafe, hL.alnum_special _ (by decide : '\'' ∈ _), hL.alnum_special _ (by decide : '"' ∈ _),
      hL.alnum_special _ (by decide : '\\' ∈ _)] at h

theorem unquoteLoop_quoteLoop {L : Locale} (hL : L.Ok) (s buf : List Char) :
    unquoteLoop false buf (quoteLoop L s) = some (buf ++ s) := by
  fun_induction quoteLoop L s generalizing buf with
  | case1 => simp [unquoteLoop]
  | case2 s ih => rw [unquoteLoop_bs, ih]; simp
  | case3 c s hc h ih =>
    rw [unquoteLoop_plain _ _ _ (fun d hd => safe_not_quote hL (Util.of_mem_takeWhile hd)), ih,
      List.append_assoc, List.takeWhile_append_dropWhile]
  | case4 c s hc h ih =>
    rw [unquoteLoop_sq _ _ _ (not_mem_takeWhile_ne _ _), ih]
    have : (c :: s).takeWhile (· ≠ '\'') = c :: s.takeWhile (· ≠ '\'') := by
      simp [List.takeWhile_cons, hc]
    rw [this, List.append_assoc, List.cons_append, dropWhile_ne_append]

/-- **C11.** Quoting any string and removing the quotes gives the string back. -/
theorem C11_unquote_quote {L : Locale} (hL : L.Ok) (s : List Char) :
    unquote (quoteAsWord L s) = some s := by
  unfold quoteAsWord unquote
  by_cases h : s = []
  · subst h
    have := unquoteLoop_sq [] [] [] (by simp)
    simp only [if_true]
    simpa [unquoteLoop] using this
  · rw [if_neg h]
    exact unquoteLoop_quoteLoop hL s []

/-- **C11**, consequence: different strings have different quoted forms. -/
theorem C11_quote_injective {L : Locale} (hL : L.Ok) (s t : List Char)
    (h : quoteAsWord L s = quoteAsWord L t) : s = t := by
  have h1 := C11_unquote_quote hL s
  rw [h, C11_unquote_quote hL t] at h1
  exact (Option.some.inj h1).symm

/-! ## C13 -/

/-- **C13.** Escaping with respect to any character set that contains the backslash (or with
respect to all characters) and unescaping gives the string back. -/
theorem C13_unescape_escape (t : Option (List Char)) (ht : ∀ t', t = some t' → '\\' ∈ t')
    (s : List Char) : unescape (escape t s) = s := by
  induction s with
  | nil => simp [escape, unescape]
  | cons c s ih =>
    have hplain : c ≠ '\\' → ∀ r, unescape (c :: r) = c :: unescape r := by
      intro hc r
      rw [unescape.eq_def]
      split
      · simp_all
      · rename_i heq; simp at heq; exact absurd heq.1 hc
      · rename_i heq; simp at heq; exact absurd heq.1 hc
      · rename_i heq
        simp at heq
        rw [← heq.1, ← heq.2]
    cases t with
    | none => simp [escape, unescape, ih]
    | some t' =>
      by_cases h : c ∈ t'
      · simp [escape, h, unescape, ih]
      · have hc : c ≠ '\\' := fun hc => h (hc ▸ ht t' rfl)
        simp [escape, h, hplain hc, ih]

/-- **C13**, the freeing variant behaves the same. -/
theorem C13_unescape_escapefree (t : Option (List Char)) (ht : ∀ t', t = some t' → '\\' ∈ t')
    (s : List Char) : escapefree t s = escape t s ∧ unescape (escapefree t s) = s := by
  have h1 : escapefree t s = escape t s := by
    cases t with
    | none => rfl
    | some t' =>
      simp only [escapefree]
      split
      · rfl
      · rename_i h
        simp only [List.any_eq_true, not_exists, not_and] at h
        clear ht
        induction s with
        | nil => rfl
        | cons c s ih =>
          have h2 := h c (by simp)
          simp only [escape, h2]
          rw [← ih (fun x hx => h x (by simp [hx]))]
          rfl
  exact ⟨h1, by rw [h1]; exact C13_unescape_escape t ht s⟩

/-- Reading an escaped string from the left: a character is *bare* if it is not the character
after an escaping backslash.  `bare t` says that no bare character belongs to `t`, where a
backslash always escapes its successor. -/
def NoBare (t : List Char) : List Char → Prop
  | [] => True
  | '\\' :: _ :: s => NoBare t s
  | c :: s => c ∉ t ∧ NoBare t s

/-- **C13**, second half: in the escaped string every listed character is preceded by a backslash. -/
theorem C13_escape_covers (t : List Char) (ht : '\\' ∈ t) (s : List Char) :
    NoBare t (escape (some t) s) := by
  induction s with
  | nil => simp [escape, NoBare]
  | cons c s ih =>
    simp only [escape]
    split
    · exact ih
    · rename_i h
      simp at h
      rw [NoBare.eq_def]
      split
      · trivial
      · rename_i heq; simp at heq; exact absurd ht (heq.1 ▸ h)
      · rename_i heq; simp at heq; rw [← heq.1, ← heq.2]; exact ⟨h, ih⟩

/-! ## Non-vacuity -/

/-- The C locale. -/
def cLocale : Locale where
  alnum := fun c => c.isAlphanum
  blank := fun c => c == ' ' || c == '\t'
  space := fun c => c == ' ' || (9 ≤ c.toNat && c.toNat ≤ 13)

theorem cLocale_ok : cLocale.Ok where
  alnum_blank := by
    intro c h
    simp only [cLocale, Bool.or_eq_false_iff, beq_eq_false_iff_ne]
    constructor <;> rintro rfl <;> simp [cLocale] at h <;> revert h <;> decide
  alnum_special := by decide
  punct_blank := by decide
  punct_space := by decide

example : quoteAsWord cLocale ['i', 't', '\'', 's', '*'] =
    ['i', 't', '\\', '\'', '\'', 's', '*', '\''] := by
  simp [quoteAsWord, quoteLoop, isSafe, cLocale, List.dropWhile, List.takeWhile]
example : unquote ['a', '"', 'b'] = none := by simp [unquote, unquoteLoop]
example : unquote ['"', 'b', '\\', '$', '"', '\'', '"', '\''] = some ['b', '$', '"'] := by
  simp [unquote, unquoteLoop, charsEscapable, addSq]
example : escape (some "*\\".toList) "a*b\\".toList = "a\\*b\\\\".toList := by decide

end Yash.Expand
