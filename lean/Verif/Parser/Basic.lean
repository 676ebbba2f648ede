import Verif.Parser.Print
import Verif.Parser.Spec
/-!
# Reading what was printed: words

`Ev p` says that `p` holds for all limits of the nesting that are large enough.  The predicates that end with `RT` say that
something is read back when it has been printed, whatever was printed before it and whatever follows.
-/
set_option autoImplicit false

namespace Yash.Parser

open Syntax Spec
open Expand (Locale)

/-! ## Large limits -/

/-- The property holds from some limit on. -/
def Ev (p : Nat → Prop) : Prop := ∃ m0, ∀ m, m0 ≤ m → p m

theorem Ev.and {p q : Nat → Prop} (hp : Ev p) (hq : Ev q) : Ev fun m => p m ∧ q m := by
  obtain ⟨a, ha⟩ := hp
  obtain ⟨b, hb⟩ := hq
  exact ⟨a + b, fun m hm => ⟨ha m (by omega), hb m (by omega)⟩⟩

theorem Ev.mono {p q : Nat → Prop} (hp : Ev p) (h : ∀ m, p m → q m) : Ev q := by
  obtain ⟨a, ha⟩ := hp
  exact ⟨a, fun m hm => h m (ha m hm)⟩

theorem Ev.of {p : Nat → Prop} (h : ∀ m, p m) : Ev p := ⟨0, fun m _ => h m⟩

theorem Ev.mono2 {p q s : Nat → Prop} (hp : Ev p) (hq : Ev q) (h : ∀ m, p m → q m → s m) : Ev s :=
  (hp.and hq).mono fun m ⟨a, b⟩ => h m a b

theorem Ev.mono3 {p q s t : Nat → Prop} (hp : Ev p) (hq : Ev q) (hs : Ev s) (h : ∀ m, p m → q m → s m → t m) : Ev t :=
  ((hp.and hq).and hs).mono fun m ⟨⟨a, b⟩, c⟩ => h m a b c

/-- The limit can be taken to be positive. -/
theorem Ev.succ {p : Nat → Prop} (h : Ev fun m => p (m + 1)) : Ev p := by
  obtain ⟨a, ha⟩ := h
  refine ⟨a + 1, fun m hm => ?_⟩
  obtain ⟨k, rfl⟩ : ∃ k, m = k + 1 := ⟨m - 1, by omega⟩
  exact ha k (by omega)

/-- From two limits on. -/
def Ev2 (p : Nat → Nat → Prop) : Prop := ∃ m0, ∀ m n, m0 ≤ m → m0 ≤ n → p m n

theorem Ev2.diag {p : Nat → Nat → Prop} (h : Ev2 p) : Ev fun m => p m m := by
  obtain ⟨a, ha⟩ := h
  exact ⟨a, fun m hm => ha m m hm hm⟩

theorem Ev.two {p : Nat → Prop} (h : Ev p) : Ev2 fun m _ => p m := by
  obtain ⟨a, ha⟩ := h
  exact ⟨a, fun m n hm _ => ha m hm⟩

theorem Ev2.and {p q : Nat → Nat → Prop} (hp : Ev2 p) (hq : Ev2 q) : Ev2 fun m n => p m n ∧ q m n := by
  obtain ⟨a, ha⟩ := hp
  obtain ⟨b, hb⟩ := hq
  exact ⟨a + b, fun m n hm hn => ⟨ha m n (by omega) (by omega), hb m n (by omega) (by omega)⟩⟩

theorem Ev2.mono {p q : Nat → Nat → Prop} (hp : Ev2 p) (h : ∀ m n, p m n → q m n) : Ev2 q := by
  obtain ⟨a, ha⟩ := hp
  exact ⟨a, fun m n hm hn => h m n (ha m n hm hn)⟩

/-- The number of rounds can be taken to be positive. -/
theorem Ev2.succ {p : Nat → Nat → Prop} (h : Ev2 fun m n => p m (n + 1)) : Ev2 p := by
  obtain ⟨a, ha⟩ := h
  refine ⟨a + 1, fun m n hm hn => ?_⟩
  obtain ⟨k, rfl⟩ : ∃ k, n = k + 1 := ⟨n - 1, by omega⟩
  exact ha m k (by omega) (by omega)

/-! ## Text -/

/-- The text does not end with a backslash. -/
def NT (r : List Char) : Prop := r.getLast? ≠ some '\\'

theorem NT.nil : NT [] := by simp [NT]

theorem NT.tail {c : Char} {r : List Char} (h : NT (c :: r)) : NT r := by
  cases r with
  | nil => exact NT.nil
  | cons d r => simpa [NT, List.getLast?_cons_cons] using h

theorem NT.ne {r : List Char} (h : NT ['\\']) : NT r := absurd rfl h

theorem NT.drop {a r : List Char} (h : NT (a ++ r)) : NT r := by
  induction a with
  | nil => exact h
  | cons c a ih => exact ih h.tail

theorem NT.append {a r : List Char} (h : NT r) (hr : r ≠ []) : NT (a ++ r) := by
  unfold NT at *
  rw [List.getLast?_append]
  cases hg : r.getLast? with
  | none => simp at hg; exact absurd hg hr
  | some x => rw [hg] at h; simpa using h

theorem NT.cons {c : Char} {r : List Char} (h : NT r) (hc : c ≠ '\\') : NT (c :: r) := by
  cases r with
  | nil => simpa [NT] using hc
  | cons d r => simpa [NT, List.getLast?_cons_cons] using h

theorem lineCont_bs (r : List Char) : lineCont ('\\' :: '\n' :: r) = lineCont r := by
  rw [lineCont]

theorem lineCont_id {c : Char} {r : List Char} (h : c ≠ '\\') : lineCont (c :: r) = c :: r := by
  rw [lineCont.eq_def]
  split
  · rename_i heq
    cases heq
    exact absurd rfl h
  · rfl

theorem lineCont_bs_id {d : Char} {r : List Char} (h : d ≠ '\n') : lineCont ('\\' :: d :: r) = '\\' :: d :: r := by
  rw [lineCont.eq_def]
  split
  · rename_i heq
    cases heq
    exact absurd rfl h
  · rfl

@[simp] theorem lineCont_nil : lineCont [] = [] := by simp [lineCont]

/-- Either there is nothing to remove, or the text starts with a line continuation. -/
theorem lineCont_cases (r : List Char) : lineCont r = r ∨ ∃ t, r = '\\' :: '\n' :: t := by
  rw [lineCont.eq_def]
  split
  · exact .inr ⟨_, rfl⟩
  · exact .inl rfl

theorem lineCont_idem (r : List Char) : lineCont (lineCont r) = lineCont r := by
  induction hn : r.length using Nat.strongRecOn generalizing r with
  | ind n ih =>
    rcases lineCont_cases r with h | ⟨t, rfl⟩
    · rw [h, h]
    · rw [lineCont_bs]
      exact ih t.length (by subst hn; simp; omega) t rfl

theorem lineCont_suffix (r : List Char) : ∃ a, r = a ++ lineCont r := by
  induction hn : r.length using Nat.strongRecOn generalizing r with
  | ind n ih =>
    rcases lineCont_cases r with h | ⟨t, rfl⟩
    · exact ⟨[], by rw [h]; rfl⟩
    · rw [lineCont_bs]
      obtain ⟨a, ha⟩ := ih t.length (by subst hn; simp; omega) t rfl
      exact ⟨'\\' :: '\n' :: a, by rw [List.cons_append, List.cons_append, ← ha]⟩

theorem NT.lineCont {r : List Char} (h : NT r) : NT (lineCont r) := by
  obtain ⟨a, ha⟩ := lineCont_suffix r
  rw [ha] at h
  exact h.drop

/-- What is left after removing line continuations does not start with one. -/
theorem lineCont_normal {r t : List Char} (h : lineCont r = t) : lineCont t = t := by
  rw [← h, lineCont_idem]

theorem normal_bs {d : Char} {r : List Char} (h : lineCont ('\\' :: d :: r) = '\\' :: d :: r) : d ≠ '\n' := by
  rintro rfl
  rw [lineCont_bs] at h
  obtain ⟨a, ha⟩ := lineCont_suffix r
  have h1 := congrArg List.length h
  have h2 := congrArg List.length ha
  simp at h1 h2
  omega

/-! ## Words -/

/-- The character can follow a dollar sign in an expansion. -/
def startsParam (d : Char) : Bool :=
  isSpecialParam d || isDigitChar d || isPortableNameChar d || d == '{' || d == '('

/-- The text ends the word: it is empty or starts with a delimiter, and the dollar sign at the end of the word does not
become a part of an expansion. -/
def Follow (delim : Char → Bool) (w : Word) (r : List Char) : Prop :=
  lineCont r = r ∧ ∀ d ∈ r.head?, delim d = true ∧ (EndsWithDollar w → startsParam d = false)

theorem Spec.EndsWithDollar.append {w : Word} (h : EndsWithDollar w) (a : Word) : EndsWithDollar (a ++ w) := by
  obtain ⟨w', rfl⟩ := h
  exact ⟨a ++ w', by simp⟩

theorem Spec.EndsWithDollar.cons {w : Word} (h : EndsWithDollar w) (u : WordUnit) : EndsWithDollar (u :: w) := h.append [u]

theorem endsWithDollar_of_append {a w : Word} (h : EndsWithDollar (a ++ w)) (hne : w ≠ []) : EndsWithDollar w := by
  obtain ⟨w', hw'⟩ := h
  have h1 := congrArg List.getLast? hw'
  have h2 := List.dropLast_concat_getLast hne
  rw [List.getLast?_append, List.getLast?_eq_some_getLast hne] at h1
  simp at h1
  rw [h1] at h2
  exact ⟨w.dropLast, h2.symm⟩

theorem Follow.of_append {delim : Char → Bool} {a w : Word} {r : List Char} (h : Follow delim (a ++ w) r) :
    Follow delim w r :=
  ⟨h.1, fun d hd => ⟨(h.2 d hd).1, fun he => (h.2 d hd).2 (he.append a)⟩⟩

theorem Follow.nil (delim : Char → Bool) (w : Word) : Follow delim w [] := ⟨by simp, by simp⟩

variable (L : Locale)

/-- A word unit that is an expansion is read back. -/
def UnitRT (u : WordUnit) : Prop :=
  ∀ ml i buf, ∃ c s, printUnit L ml i u buf = buf ++ '$' :: c :: s ∧ (c = '{' ∨ c = '(') ∧
    ∀ b r indq, Ev fun m => (parser L m).special indq ⟨b, '$' :: c :: s ++ r⟩ = some (some u, ⟨('$' :: c :: s).reverse ++ b, r⟩)

/-- The rest of a word is read back.  The text `acc` has been read already; `h` is the first character of the rest. -/
def WordRT (delim : Char → Bool) (indq : Bool) (acc : List Char) (h : Option Char) (w : Word) : Prop :=
  ∀ ml i buf, ∃ s, printWord L ml i w buf = buf ++ acc ++ s ∧ (s = [] → w = stringUnit acc) ∧ (s ≠ [] → s.head? = h) ∧
    (∀ r, Follow delim w r → lineCont (s ++ r) = s ++ r) ∧
    ∀ b r, Follow delim w r → ∀ k, s.length < k → Ev fun m =>
      parseWordLoop (parser L m).special delim k indq acc ⟨b, s ++ r⟩ = some (w, ⟨s.reverse ++ b, r⟩)

/-- What the parser of expansions does. -/
structure GoodSpecial (special : Special) : Prop where
  unit : ∀ indq b c r u st, NT (c :: r) → special indq ⟨b, c :: r⟩ = some (some u, st) →
    NT st.rest ∧ (∀ t, u ≠ .str t) ∧ (UnitOk L u → c = '$' ∧ UnitRT L u)
  dollar : ∀ indq b c r st, special indq ⟨b, c :: r⟩ = some (none, st) →
    c = '$' ∧ st = ⟨b, '$' :: lineCont r⟩ ∧ ∀ d ∈ (lineCont r).head?, startsParam d = false

variable {L}

theorem WordOk_iff (w : Word) : WordOk L w ↔ ∀ u ∈ w, UnitOk L u := by
  induction w with
  | nil => simp [WordOk]
  | cons u w ih => simp [WordOk, ih]

theorem WordOk_append (a w : Word) : WordOk L (a ++ w) ↔ WordOk L a ∧ WordOk L w := by
  simp [WordOk_iff, or_imp, forall_and]

theorem WordOk_stringUnit (acc : List Char) : WordOk L (stringUnit acc) := by
  unfold stringUnit
  split <;> simp [WordOk, UnitOk]

theorem printWord_append (ml : Bool) (i : Nat) (a w : Word) (b : List Char) :
    printWord L ml i (a ++ w) b = printWord L ml i w (printWord L ml i a b) := by
  induction a generalizing b with
  | nil => simp [printWord]
  | cons u a ih => simp [printWord, ih]

theorem printWord_stringUnit (ml : Bool) (i : Nat) (acc b : List Char) :
    printWord L ml i (stringUnit acc) b = b ++ acc := by
  unfold stringUnit
  split
  · rename_i h
    simp at h
    simp [printWord, h]
  · simp [printWord, printUnit]

/-- A dollar sign that does not start an expansion. -/
theorem special_dollar (R : Rec) (indq : Bool) (b r : List Char) (hn : lineCont r = r)
    (h : ∀ d ∈ r.head?, startsParam d = false) : special L R indq ⟨b, '$' :: r⟩ = some (none, ⟨b, '$' :: r⟩) := by
  simp only [special]
  rw [hn]
  cases r with
  | nil => simp [rawParam]
  | cons d r =>
    have := h d (by simp)
    simp [startsParam] at this
    obtain ⟨⟨⟨⟨h1, h2⟩, h3⟩, h4⟩, h5⟩ := this
    split
    · rename_i heq; cases heq; exact absurd rfl h4
    · rename_i heq; cases heq; exact absurd rfl h5
    · simp [rawParam, hn, h1, h2, h3]

theorem stringUnit_ne {acc t : List Char} (h : WordUnit.str t ∈ stringUnit acc) : t = acc ∧ t ≠ [] := by
  unfold stringUnit at h
  split at h
  · simp at h
  · rename_i hne
    simp at h hne
    subst h
    exact ⟨rfl, hne⟩

/-- What is known about the result of reading a word. -/
structure WordResult (L : Locale) (delim : Char → Bool) (indq : Bool) (acc b0 r0 : List Char) (w : Word) (st : Src) : Prop where
  nt : NT st.rest
  follow : Follow delim w st.rest
  strs : ∀ t, WordUnit.str t ∈ w → t ≠ []
  ne : acc ≠ [] → w ≠ []
  text : ∀ t, w = [.str t] → ∃ t', t = acc ++ t' ∧ st.before = t'.reverse ++ b0
  nil : w = [] → st.before = b0 ∧ st.rest = lineCont r0
  rt : WordOk L w → WordRT L delim indq acc (lineCont r0).head? w

theorem cons_ne_stringUnit {u : WordUnit} {w : Word} {acc : List Char} (h : ∀ t, u ≠ .str t) : u :: w ≠ stringUnit acc := by
  unfold stringUnit
  split
  · simp
  · intro heq
    simp at heq
    exact h _ heq.1

theorem takeWhile_quote (q r : List Char) (hq : ∀ c ∈ q, c ≠ '\'') :
    (q ++ '\'' :: r).takeWhile (· ≠ '\'') = q ∧ (q ++ '\'' :: r).dropWhile (· ≠ '\'') = '\'' :: r := by
  induction q with
  | nil => simp
  | cons c q ih =>
    have hc : c ≠ '\'' := hq c (by simp)
    have := ih fun d hd => hq d (by simp [hd])
    rw [List.cons_append, List.takeWhile_cons_of_pos (by simp [hc]), List.dropWhile_cons_of_pos (by simp [hc]), this.1]
    exact ⟨rfl, this.2⟩

theorem quote_split {r r' : List Char} {c : Char} (h : r.dropWhile (· ≠ '\'') = c :: r') :
    c = '\'' ∧ r = r.takeWhile (· ≠ '\'') ++ '\'' :: r' ∧ ∀ d ∈ r.takeWhile (· ≠ '\''), d ≠ '\'' := by
  induction r with
  | nil => simp at h
  | cons d r ih =>
    by_cases hd : d = '\''
    · subst hd
      simp at h
      simp [← h.1, h.2]
    · rw [List.dropWhile_cons_of_pos (by simp [hd])] at h
      obtain ⟨h1, h2, h3⟩ := ih h
      rw [List.takeWhile_cons_of_pos (by simp [hd])]
      refine ⟨h1, by rw [List.cons_append, ← h2], ?_⟩
      intro e he
      simp at he
      rcases he with rfl | he
      · exact hd
      · exact h3 e (by simpa using he)

end Yash.Parser
