import Verif.Fnmatch.Match
import Verif.Fnmatch.Spec
/-!
# The regular expression means what the pattern means
-/
set_option autoImplicit false

namespace Yash.Fnmatch

open Spec (Tok Atom Items Bracket Reads isKind unquoted Plausible PlausiblePattern)

/-! ## `wcsstr` -/

theorem wcsstr_some {sub s a b : List Char} (h : wcsstr sub s = some (a, b)) :
    s = a ++ sub ++ b ∧ ∀ a' b', s = a' ++ sub ++ b' → a.length ≤ a'.length := by
  induction s generalizing a b with
  | nil =>
    simp only [wcsstr] at h
    split at h
    · rename_i hs
      subst hs
      simp only [Option.some.injEq, Prod.mk.injEq] at h
      obtain ⟨rfl, rfl⟩ := h
      simp
    · cases h
  | cons c s ih =>
    simp only [wcsstr] at h
    split at h
    · rename_i hp
      simp only [Option.some.injEq, Prod.mk.injEq] at h
      obtain ⟨rfl, rfl⟩ := h
      refine ⟨?_, by simp⟩
      simp only [List.nil_append]
      exact (List.prefix_iff_eq_append.mp hp).symm
    · rename_i hp
      split at h
      · rename_i a0 b0 h0
        simp only [Option.some.injEq, Prod.mk.injEq] at h
        obtain ⟨rfl, rfl⟩ := h
        obtain ⟨h1, h2⟩ := ih h0
        refine ⟨by simp [h1], ?_⟩
        intro a' b' he
        cases a' with
        | nil => exact absurd ⟨b', by simpa using he.symm⟩ hp
        | cons x a' =>
          simp only [List.cons_append, List.cons.injEq] at he
          have := h2 a' b' he.2
          simpa using this
      · cases h

theorem wcsstr_none {sub s : List Char} (h : wcsstr sub s = none) :
    ∀ a b, s ≠ a ++ sub ++ b := by
  induction s with
  | nil =>
    simp only [wcsstr] at h
    split at h
    · cases h
    · rename_i hs
      intro a b he
      have := congrArg List.length he
      simp only [List.length_nil, List.length_append] at this
      exact hs (List.eq_nil_of_length_eq_zero (by omega))
  | cons c s ih =>
    simp only [wcsstr] at h
    split at h
    · cases h
    · rename_i hp
      split at h
      · cases h
      · rename_i h0
        intro a b he
        cases a with
        | nil => exact hp ⟨b, by simpa using he.symm⟩
        | cons x a =>
          simp only [List.cons_append, List.cons.injEq] at he
          exact ih h0 a b he.2

/-- The first occurrence is the one found. -/
theorem wcsstr_first {sub s a b : List Char} (he : s = a ++ sub ++ b)
    (hf : ∀ a' b', s = a' ++ sub ++ b' → a.length ≤ a'.length) : wcsstr sub s = some (a, b) := by
  cases h : wcsstr sub s with
  | none => exact absurd he (wcsstr_none h a b)
  | some p =>
    obtain ⟨a', b'⟩ := p
    obtain ⟨h1, h2⟩ := wcsstr_some h
    have hl : a.length = a'.length := Nat.le_antisymm (hf _ _ h1) (h2 _ _ he)
    have h3 : a ++ (sub ++ b) = a' ++ (sub ++ b') := by simpa using he.symm.trans h1
    obtain ⟨rfl, h4⟩ := List.append_inj h3 hl
    have := List.append_cancel_left h4
    rw [this]

theorem wcsstr_close {k : Char} {t rest : List Char}
    (h : ∀ a b, t ++ [k] ≠ a ++ k :: ']' :: b) :
    wcsstr [k, ']'] (t ++ k :: ']' :: rest) = some (t, rest) := by
  refine wcsstr_first (by simp) ?_
  intro a b he
  apply Classical.byContradiction
  intro hl
  have hl : a.length < t.length := by omega
  have h1 : (t ++ [k]) ++ (']' :: rest) = (a ++ [k, ']']) ++ b := by simpa using he
  have h2 : a ++ [k, ']'] <+: t ++ [k] := by
    refine List.prefix_of_prefix_length_le (l₃ := (a ++ [k, ']']) ++ b) (List.prefix_append _ _) ?_ ?_
    · rw [← h1]; exact List.prefix_append _ _
    · simp; omega
  obtain ⟨c, hc⟩ := h2
  exact h a c (by rw [← hc]; simp)

theorem wcsstr_close_inv {k : Char} {s t rest : List Char}
    (h : wcsstr [k, ']'] s = some (t, rest)) :
    s = t ++ k :: ']' :: rest ∧ ∀ a b, t ++ [k] ≠ a ++ k :: ']' :: b := by
  obtain ⟨h1, h2⟩ := wcsstr_some h
  refine ⟨by simpa using h1, ?_⟩
  intro a b he
  have h3 : s = a ++ [k, ']'] ++ (b ++ ']' :: rest) := by
    rw [h1]
    have : t ++ [k, ']'] ++ rest = (t ++ [k]) ++ (']' :: rest) := by simp
    rw [this, he]
    simp
  have h4 := h2 _ _ h3
  have h5 := congrArg List.length he
  simp at h5
  omega

/-! ## Bracket expressions -/

theorem stripBackslashes_eq (t : List Char) : stripBackslashes t = unquoted t := by
  fun_induction stripBackslashes t
  · rfl
  · rfl
  · rename_i ih; rw [unquoted, ih]
  · rename_i c r h1 h2 ih
    rw [unquoted, ih]
    · intro hc hr; exact h1 hc hr
    · intro d r' hc hr; exact h2 d r' hc hr

/-- What is emitted for an item. -/
def emit : Tok → List Char
  | .plain c => [c]
  | .quoted c => if c = '[' ∨ c = '^' ∨ c = '-' ∨ c = ']' then ['[', '.', c, '.', ']'] else [c]
  | .sym k t => '[' :: k :: t ++ [k, ']']

theorem encodeBracket2_sym {k : Char} {t rest : List Char} (hk : isKind k)
    (h : ∀ a b, t ++ [k] ≠ a ++ k :: ']' :: b) :
    encodeBracket2 (k :: (t ++ k :: ']' :: rest))
      = some ('[' :: k :: unquoted t ++ [k, ']'], rest) := by
  have hw := wcsstr_close (rest := rest) h
  rcases hk with rfl | rfl | rfl <;>
    simp only [encodeBracket2, hw, stripBackslashes_eq] <;> rfl

theorem encodeBracket2_other {r : List Char} (h : ∀ k r', r = k :: r' → ¬ isKind k) :
    encodeBracket2 r = some (['['], r) := by
  unfold encodeBracket2
  split
  · exact absurd (Or.inl rfl) (h _ _ rfl)
  · exact absurd (Or.inr (Or.inl rfl)) (h _ _ rfl)
  · exact absurd (Or.inr (Or.inr rfl)) (h _ _ rfl)
  · rfl

theorem encodeBracket2_inv {r out rest : List Char} (h : encodeBracket2 r = some (out, rest)) :
    (∃ k t, isKind k ∧ (∀ a b, t ++ [k] ≠ a ++ k :: ']' :: b) ∧ r = k :: t ++ k :: ']' :: rest)
    ∨ ((∀ k r', r = k :: r' → ¬ isKind k) ∧ rest = r) := by
  unfold encodeBracket2 at h
  split at h
  · split at h
    · cases h
    · rename_i hw
      simp only [Option.some.injEq, Prod.mk.injEq] at h
      obtain ⟨rfl, rfl⟩ := h
      obtain ⟨h1, h2⟩ := wcsstr_close_inv hw
      exact Or.inl ⟨_, _, Or.inl rfl, h2, by rw [h1]; rfl⟩
  · split at h
    · cases h
    · rename_i hw
      simp only [Option.some.injEq, Prod.mk.injEq] at h
      obtain ⟨rfl, rfl⟩ := h
      obtain ⟨h1, h2⟩ := wcsstr_close_inv hw
      exact Or.inl ⟨_, _, Or.inr (Or.inl rfl), h2, by rw [h1]; rfl⟩
  · split at h
    · cases h
    · rename_i hw
      simp only [Option.some.injEq, Prod.mk.injEq] at h
      obtain ⟨rfl, rfl⟩ := h
      obtain ⟨h1, h2⟩ := wcsstr_close_inv hw
      exact Or.inl ⟨_, _, Or.inr (Or.inr rfl), h2, by rw [h1]; rfl⟩
  · rename_i h1 h2 h3
    simp only [Option.some.injEq, Prod.mk.injEq] at h
    obtain ⟨rfl, rfl⟩ := h
    refine Or.inr ⟨?_, rfl⟩
    rintro k r' rfl (rfl | rfl | rfl)
    · exact h1 _ rfl
    · exact h2 _ rfl
    · exact h3 _ rfl

theorem items_ne_nil {s : List Char} {ts : List Tok} (h : Items s ts) : s ≠ [] := by
  cases h <;> simp

theorem encodeLoop_plain {n : Nat} {c : Char} {r out rest : List Char}
    (h1 : c ≠ ']') (h2 : c ≠ '[') (h3 : c ≠ '\\')
    (h : encodeBracketLoop n r = some (out, rest)) :
    encodeBracketLoop (n + 1) (c :: r) = some (c :: out, rest) := by
  unfold encodeBracketLoop
  simp [h1, h2, h3, h]

theorem encodeLoop_items {s : List Char} {ts : List Tok} (h : Items s ts) :
    ∀ (n : Nat) (rest : List Char), s.length ≤ n →
      encodeBracketLoop n (s ++ rest) = some (ts.flatMap emit ++ [']'], rest) := by
  induction h with
  | close =>
    intro n rest hn
    match n, hn with
    | n + 1, _ => simp [encodeBracketLoop]
  | plain c s ts h1 h2 h3 _ ih =>
    intro n rest hn
    match n, hn with
    | n + 1, hn =>
      rw [List.cons_append, encodeLoop_plain h1 h2 h3 (ih n rest (by simp at hn; omega))]
      simp [emit]
  | bracket s ts hk hs ih =>
    intro n rest hn
    match n, hn with
    | n + 1, hn =>
      have : encodeBracket2 (s ++ rest) = some (['['], s ++ rest) := by
        apply encodeBracket2_other
        intro k r' he
        cases s with
        | nil => exact absurd rfl (items_ne_nil hs)
        | cons x s =>
          simp only [List.cons_append, List.cons.injEq] at he
          rw [← he.1]
          exact hk x s rfl
      simp only [List.cons_append, encodeBracketLoop, this, ih n rest (by simp at hn; omega)]
      simp [emit]
  | quoted c s ts _ ih =>
    intro n rest hn
    match n, hn with
    | n + 1, hn =>
      simp only [List.cons_append, encodeBracketLoop, ih n rest (by simp at hn; omega)]
      simp [emit, collatingSymbol]
  | sym k t s ts hk hf _ ih =>
    intro n rest hn
    match n, hn with
    | n + 1, hn =>
      have h2 := encodeBracket2_sym (rest := s ++ rest) hk hf
      have e : ('[' :: k :: t ++ k :: ']' :: s) ++ rest
          = '[' :: (k :: (t ++ k :: ']' :: (s ++ rest))) := by simp
      rw [e]
      simp only [encodeBracketLoop, h2, ih n rest (by simp at hn; omega)]
      simp [emit]

theorem encodeLoop_inv : ∀ (n : Nat) (s out rest : List Char),
    encodeBracketLoop n s = some (out, rest) → ∃ body ts, s = body ++ rest ∧ Items body ts := by
  intro n
  induction n with
  | zero => intro s out rest h; simp [encodeBracketLoop] at h
  | succ n ih =>
    intro s out rest h
    unfold encodeBracketLoop at h
    split at h
    · cases h
    · split at h
      · cases h
      · rename_i h2
        split at h
        · rename_i hl
          simp only [Option.some.injEq, Prod.mk.injEq] at h
          obtain ⟨rfl, rfl⟩ := h
          obtain ⟨body, ts, he, hi⟩ := ih _ _ _ hl
          rcases encodeBracket2_inv h2 with ⟨k, t, hk, hf, hr⟩ | ⟨hk, hr⟩
          · exact ⟨_, _, by rw [hr, he]; simp, Items.sym k t body ts hk hf hi⟩
          · refine ⟨'[' :: body, _, by rw [List.cons_append, ← he, ← hr], Items.bracket _ _ ?_ hi⟩
            intro k r' hb
            exact hk k _ (by rw [← hr, he, hb, List.cons_append])
        · cases h
    · cases h
    · split at h
      · rename_i hl
        simp only [Option.some.injEq, Prod.mk.injEq] at h
        obtain ⟨rfl, rfl⟩ := h
        obtain ⟨body, ts, he, hi⟩ := ih _ _ _ hl
        exact ⟨_, _, by rw [he]; rfl, Items.quoted _ _ _ hi⟩
      · cases h
    · simp only [Option.some.injEq, Prod.mk.injEq] at h
      obtain ⟨rfl, rfl⟩ := h
      exact ⟨[']'], [], rfl, Items.close⟩
    · rename_i h1 h2 h3 h4
      split at h
      · rename_i hl
        simp only [Option.some.injEq, Prod.mk.injEq] at h
        obtain ⟨rfl, rfl⟩ := h
        obtain ⟨body, ts, he, hi⟩ := ih _ _ _ hl
        refine ⟨_ :: body, _, by rw [he]; rfl, Items.plain _ _ _ ?_ ?_ ?_ hi⟩
        · rintro rfl; exact h4 rfl
        · rintro rfl; exact h1 rfl
        · rintro rfl
          cases body with
          | nil => exact absurd rfl (items_ne_nil hi)
          | cons x y => exact h3 x _ rfl (by rw [he]; rfl)
      · cases h

/-! ## Reading the regular expression -/

/-- The item of the regular expression. -/
def btok : Tok → BTok
  | .plain c => .plain c
  | .quoted c => if c = '[' ∨ c = '^' ∨ c = '-' ∨ c = ']' then .sym '.' [c] else .plain c
  | .sym k t => .sym k t

theorem btok_item (t : Tok) (h : ∀ k u, t = .sym k u → isKind k) : (btok t).item = t.item := by
  cases t with
  | plain c =>
    simp only [btok, Tok.item]
    split
    · rename_i hc; subst hc; rfl
    · rename_i hc
      unfold BTok.item
      split <;> simp_all
  | quoted c =>
    simp only [btok, Tok.item]
    split
    · rfl
    · rename_i hc
      unfold BTok.item
      split <;> simp_all
  | sym k u =>
    simp only [btok, Tok.item]
    rcases h k u rfl with rfl | rfl | rfl <;> rfl

theorem breItems_plain {c : Char} {r rest : List Char} {ts : List BTok} (h1 : c ≠ ']')
    (h2 : c = '[' → ∃ d r', r = d :: r' ∧ ¬ isKind d)
    (h : breItems none r = some (ts, rest)) :
    breItems none (c :: r) = some (.plain c :: ts, rest) := by
  by_cases hc : c = '['
  · subst hc
    obtain ⟨d, r', rfl, hd⟩ := h2 rfl
    unfold isKind at hd
    rw [breItems.eq_def]
    simp only [hd, if_false, h]
  · rw [breItems.eq_def]
    split <;> simp_all

theorem breItems_open {k : Char} {r : List Char} (hk : isKind k) :
    breItems none ('[' :: k :: r) = breItems (some (k, [])) r := by
  unfold isKind at hk
  rw [breItems.eq_def]
  simp only [hk, if_true]

theorem breItems_sym {k : Char} {r rest : List Char} {ts : List BTok}
    (h : breItems none r = some (ts, rest)) (t : List Char) :
    ∀ acc : List Char, (∀ a b, t ++ [k] ≠ a ++ k :: ']' :: b) →
    breItems (some (k, acc)) (t ++ k :: ']' :: r) = some (.sym k (acc ++ t) :: ts, rest) := by
  induction t with
  | nil =>
    intro acc _
    simp [breItems, h]
  | cons c t ih =>
    intro acc hf
    have h1 : ∀ a b, t ++ [k] ≠ a ++ k :: ']' :: b := by
      intro a b he
      exact hf (c :: a) b (by simp [he])
    have h2 := ih (acc ++ [c]) h1
    cases t with
    | nil =>
      simp only [List.nil_append, List.cons_append] at h2 ⊢
      rw [breItems]
      have : ¬ (c = k ∧ k = ']') := by
        rintro ⟨rfl, rfl⟩
        exact hf [] [] rfl
      rw [if_neg this, h2]
      simp
    | cons d t =>
      simp only [List.cons_append] at h2 ⊢
      rw [breItems]
      have : ¬ (c = k ∧ d = ']') := by
        rintro ⟨rfl, rfl⟩
        exact hf [] (t ++ [c]) (by simp)
      rw [if_neg this, h2]
      simp

/-- The first character that is emitted for the rest of the items does not open a symbol. -/
theorem emit_head {s : List Char} {ts : List Tok} (h : Items s ts)
    (hk : ∀ k r, s = k :: r → ¬ isKind k) (hp : Plausible (.plain '[' :: ts)) (rest : List Char) :
    ∃ d r', ts.flatMap emit ++ ']' :: rest = d :: r' ∧ ¬ isKind d := by
  cases h with
  | close => exact ⟨']', rest, rfl, by simp [isKind]⟩
  | plain c s ts => exact ⟨c, _, by simp [emit]; rfl, hk c s rfl⟩
  | bracket s ts => exact ⟨'[', _, by simp [emit]; rfl, by simp [isKind]⟩
  | quoted c s ts =>
    simp only [List.flatMap_cons, emit]
    split
    · exact ⟨'[', _, by simp; rfl, by simp [isKind]⟩
    · exact ⟨c, _, by simp; rfl, hp.1 rfl⟩
  | sym k t s ts => exact ⟨'[', _, by simp [emit]; rfl, by simp [isKind]⟩

theorem plausible_tail {t : Tok} {ts : List Tok} (h : Plausible (t :: ts)) : Plausible ts := by
  cases t with
  | plain c =>
    cases ts with
    | nil => trivial
    | cons t ts =>
      cases t with
      | quoted d => exact h.2
      | plain d => exact h
      | sym k u => exact h
  | quoted c => exact h
  | sym k t => exact h.2

theorem breItems_emit {s : List Char} {ts : List Tok} (h : Items s ts) :
    ∀ rest, Plausible ts →
      breItems none (ts.flatMap emit ++ ']' :: rest) = some (ts.map btok, rest) := by
  induction h with
  | close => intro rest _; simp [breItems]
  | plain c s ts h1 h2 h3 _ ih =>
    intro rest hp
    have := ih rest (plausible_tail hp)
    simp only [List.flatMap_cons, emit, List.map_cons, btok, List.cons_append, List.nil_append]
    exact breItems_plain h1 (fun hc => absurd hc h2) this
  | bracket s ts hk hs ih =>
    intro rest hp
    have := ih rest (plausible_tail hp)
    simp only [List.flatMap_cons, emit, List.map_cons, btok, List.cons_append, List.nil_append]
    exact breItems_plain (by decide) (fun _ => emit_head hs hk hp rest) this
  | quoted c s ts _ ih =>
    intro rest hp
    have := ih rest (plausible_tail hp)
    simp only [List.flatMap_cons, emit, List.map_cons, btok]
    split
    · simp only [List.cons_append, List.nil_append]
      rw [breItems_open (Or.inl rfl)]
      have h2 := breItems_sym (k := '.') this [c] [] (by
        intro a b he
        match a, he with
        | [], he => simp at he
        | [x], he => simp at he
        | x :: y :: a, he => have := congrArg List.length he; simp at this)
      simpa using h2
    · rename_i hc
      simp only [List.cons_append, List.nil_append]
      exact breItems_plain (by simp_all) (fun h => absurd h (by simp_all)) this
  | sym k t s ts hk hf _ ih =>
    intro rest hp
    have := ih rest (plausible_tail hp)
    simp only [List.flatMap_cons, emit, List.map_cons, btok]
    have e : ('[' :: k :: unquoted t ++ [k, ']']) ++ ts.flatMap emit ++ ']' :: rest
        = '[' :: k :: (unquoted t ++ k :: ']' :: (ts.flatMap emit ++ ']' :: rest)) := by simp
    rw [e, breItems_open hk]
    simpa using breItems_sym this (unquoted t) [] hp.1

theorem items_kinds {s : List Char} {ts : List Tok} (h : Items s ts) :
    ∀ t ∈ ts, ∀ k u, t = .sym k u → isKind k := by
  induction h with
  | close => simp
  | plain | bracket | quoted =>
    rename_i ih
    intro t ht k u he
    rcases List.mem_cons.mp ht with rfl | ht
    · cases he
    · exact ih t ht k u he
  | sym k t s ts hk _ _ ih =>
    intro t ht k' u he
    rcases List.mem_cons.mp ht with rfl | ht
    · cases he; exact hk
    · exact ih t ht k' u he

theorem bracket_kinds {s : List Char} {neg : Bool} {ts : List Tok} (h : Bracket s neg ts) :
    ∀ t ∈ ts, ∀ k u, t = .sym k u → isKind k := by
  cases h with
  | items _ _ _ _ _ _ hi => exact items_kinds hi
  | neg _ _ _ _ _ _ hi => exact items_kinds hi
  | first s ts hi =>
    intro t ht k u he
    rcases List.mem_cons.mp ht with rfl | ht
    · cases he
    · exact items_kinds hi t ht k u he
  | negFirst n s ts _ hi =>
    intro t ht k u he
    rcases List.mem_cons.mp ht with rfl | ht
    · cases he
    · exact items_kinds hi t ht k u he

/-- A bracket expression is emitted and read back. -/
theorem encodeBracket_read {body : List Char} {neg : Bool} {ts : List Tok}
    (h : Bracket body neg ts) (rest : List Char) :
    ∃ out, encodeBracket (body ++ rest) = some ('[' :: out, rest) ∧
      (Plausible ts → ∀ more, breBracket (out ++ more) = some (.set neg (ts.map btok), more)) := by
  cases h with
  | first s ts hi =>
    refine ⟨']' :: (ts.flatMap emit ++ [']']), ?_, ?_⟩
    · have := encodeLoop_items hi ((s ++ rest).length + 1) rest (by simp; omega)
      unfold encodeBracket
      simp at this
      simp [this]
    · intro hp more
      have := breItems_emit hi more (plausible_tail hp)
      unfold breBracket
      simp [this, btok]
  | items c s ts h1 h2 h3 hi =>
    refine ⟨ts.flatMap emit ++ [']'], ?_, ?_⟩
    · have := encodeLoop_items hi ((c :: s ++ rest).length + 1) rest (by simp; omega)
      simp at this
      unfold encodeBracket
      simp [h1, h2, h3, this]
    · intro hp more
      have := breItems_emit hi more hp
      simp only [List.append_assoc, List.cons_append, List.nil_append]
      have hh : ∃ d r', ts.flatMap emit ++ ']' :: more = d :: r' ∧ d ≠ '^' ∧ d ≠ ']' := by
        cases hi with
        | close => exact absurd rfl h1
        | plain => exact ⟨c, _, by simp [emit]; rfl, h3, h1⟩
        | bracket => exact ⟨'[', _, by simp [emit]; rfl, by decide, by decide⟩
        | sym => exact ⟨'[', _, by simp [emit]; rfl, by decide, by decide⟩
        | quoted c =>
          simp only [List.flatMap_cons, emit]
          split
          · exact ⟨'[', _, by simp; rfl, by decide, by decide⟩
          · exact ⟨c, _, by simp; rfl, by simp_all, by simp_all⟩
      obtain ⟨d, r', he, hd1, hd2⟩ := hh
      rw [he] at this ⊢
      unfold breBracket
      simp [hd1, hd2, this]
  | negFirst n s ts hn hi =>
    refine ⟨'^' :: ']' :: (ts.flatMap emit ++ [']']), ?_, ?_⟩
    · have := encodeLoop_items hi ((s ++ rest).length + 1) rest (by simp; omega)
      simp at this
      unfold encodeBracket
      rcases hn with rfl | rfl <;> simp [this]
    · intro hp more
      have := breItems_emit hi more (plausible_tail hp)
      unfold breBracket
      simp [this, btok]
  | neg n c s ts hn h1 hi =>
    refine ⟨'^' :: (ts.flatMap emit ++ [']']), ?_, ?_⟩
    · have := encodeLoop_items hi ((c :: s ++ rest).length + 1) rest (by simp; omega)
      simp at this
      unfold encodeBracket
      rcases hn with rfl | rfl <;> simp [h1, this]
    · intro hp more
      have := breItems_emit hi more hp
      simp only [List.append_assoc, List.cons_append, List.nil_append]
      have hh : ∃ d r', ts.flatMap emit ++ ']' :: more = d :: r' ∧ d ≠ ']' := by
        cases hi with
        | close => exact absurd rfl h1
        | plain => exact ⟨c, _, by simp [emit]; rfl, h1⟩
        | bracket => exact ⟨'[', _, by simp [emit]; rfl, by decide⟩
        | sym => exact ⟨'[', _, by simp [emit]; rfl, by decide⟩
        | quoted c =>
          simp only [List.flatMap_cons, emit]
          split
          · exact ⟨'[', _, by simp; rfl, by decide⟩
          · exact ⟨c, _, by simp; rfl, by simp_all⟩
      obtain ⟨d, r', he, hd2⟩ := hh
      rw [he] at this ⊢
      unfold breBracket
      simp [hd2, this]

theorem encodeBracket_inv {s out rest : List Char} (h : encodeBracket s = some (out, rest)) :
    ∃ body neg ts, s = body ++ rest ∧ Bracket body neg ts := by
  unfold encodeBracket at h
  dsimp only at h
  split at h
  · rename_i out' rest' hl
    simp only [Option.some.injEq, Prod.mk.injEq] at h
    obtain ⟨-, rfl⟩ := h
    obtain ⟨body, ts, he, hi⟩ := encodeLoop_inv _ _ _ _ hl
    clear hl
    have hn : ∃ n : List Char, ((n = [] ∧ ∀ c r, s = c :: r → c ≠ '!' ∧ c ≠ '^') ∨ n = ['!'] ∨ n = ['^']) ∧
        s = n ++ (match s with
          | '!' :: r => (['^'], r)
          | '^' :: r => (['^'], r)
          | r => ([], r)).2 := by
      split
      · exact ⟨['!'], by simp, rfl⟩
      · exact ⟨['^'], by simp, rfl⟩
      · rename_i h1 h2
        refine ⟨[], Or.inl ⟨rfl, ?_⟩, rfl⟩
        rintro c r rfl
        exact ⟨fun hc => h1 r (by rw [hc]), fun hc => h2 r (by rw [hc])⟩
    obtain ⟨n, hn, hs⟩ := hn
    revert hs he
    generalize (match s with
          | '!' :: r => (['^'], r)
          | '^' :: r => (['^'], r)
          | r => (([] : List Char), r)).2 = w
    intro he hs
    split at he
    · rename_i r
      simp only at he
      subst he
      rcases hn with ⟨rfl, -⟩ | rfl | rfl
      · exact ⟨']' :: body, false, _, by rw [hs]; simp, Bracket.first _ _ hi⟩
      · exact ⟨'!' :: ']' :: body, true, _, by rw [hs]; simp, Bracket.negFirst _ _ _ (Or.inl rfl) hi⟩
      · exact ⟨'^' :: ']' :: body, true, _, by rw [hs]; simp, Bracket.negFirst _ _ _ (Or.inr rfl) hi⟩
    · rename_i h1
      simp only at he
      subst he
      obtain ⟨c, body', rfl⟩ : ∃ c b, body = c :: b := by
        cases body with
        | nil => exact absurd rfl (items_ne_nil hi)
        | cons c b => exact ⟨c, b, rfl⟩
      have hc : c ≠ ']' := by
        rintro rfl
        exact h1 _ rfl
      rcases hn with ⟨rfl, hn⟩ | rfl | rfl
      · obtain ⟨hn1, hn2⟩ := hn c _ hs
        exact ⟨c :: body', false, _, hs, Bracket.items _ _ _ hc hn1 hn2 hi⟩
      · exact ⟨'!' :: c :: body', true, _, hs, Bracket.neg _ _ _ _ (Or.inl rfl) hc hi⟩
      · exact ⟨'^' :: c :: body', true, _, hs, Bracket.neg _ _ _ _ (Or.inr rfl) hc hi⟩
  · cases h

/-! ## Patterns -/

/-- The atom of the regular expression, and whether an asterisk follows. -/
def tr : Atom → BAtom × Bool
  | .lit c => (.lit c, false)
  | .any => (.any, false)
  | .star => (.any, true)
  | .set neg ts => (.set neg (ts.map btok), false)

theorem splitOff_ne {c : Char} {s : List Char} (h : s.head? ≠ some c) :
    splitOff c s = (false, s) := by
  cases s with
  | nil => rfl
  | cons d s =>
    have : d ≠ c := by simpa using h
    simp [splitOff, this]

theorem breAtoms_one {n : Nat} {start t : Bool} {a : BAtom} {s r : List Char}
    {as : List (BAtom × Bool)} (h0 : s ≠ []) (h1 : s ≠ ['$'])
    (ha : breAtom start s = some (a, r)) (hr : r.head? ≠ some '*')
    (h : breAtoms n false r = some (as, t)) :
    breAtoms (n + 1) start s = some ((a, false) :: as, t) := by
  rw [breAtoms, if_neg h0, if_neg h1]
  simp only [ha, splitOff_ne hr, h]

theorem breAtoms_star {n : Nat} {start t : Bool} {s : List Char}
    {as : List (BAtom × Bool)} (h : breAtoms n false s = some (as, t)) :
    breAtoms (n + 1) start ('.' :: '*' :: s) = some ((.any, true) :: as, t) := by
  rw [breAtoms, if_neg (by simp), if_neg (by simp)]
  simp only [breAtom, splitOff, if_true, h]

/-- The end anchor. -/
def dollar (t : Bool) : List Char := if t then ['$'] else []

theorem encode_head (n : Nat) (pat : List Char) (t : Bool) :
    (encodePatternN n pat ++ dollar t).head? ≠ some '*' ∧
    (encodePatternN n pat ++ dollar t).head? ≠ some '^' := by
  cases n with
  | zero => cases t <;> simp [encodePatternN, dollar]
  | succ n =>
    unfold encodePatternN
    split
    · cases t <;> simp [dollar]
    · simp
    · simp
    · split
      · rename_i out rest h
        obtain ⟨body, neg, ts, rfl, hb⟩ := encodeBracket_inv h
        obtain ⟨out', h2, -⟩ := encodeBracket_read hb rest
        rw [h2] at h
        simp only [Option.some.injEq, Prod.mk.injEq] at h
        rw [← h.1]
        simp
      · simp
    · cases t <;> simp [dollar]
    · split <;> simp_all
    · split
      · simp
      · simp_all

theorem encode_plain {n : Nat} {c : Char} {r : List Char} (h1 : c ≠ '?') (h2 : c ≠ '*')
    (h3 : c ≠ '\\') (h4 : c ≠ '[') :
    encodePatternN (n + 1) (c :: r) =
      (if c = '.' ∨ c = '^' ∨ c = '$' then ['\\', c] else [c]) ++ encodePatternN n r := by
  conv => lhs; unfold encodePatternN
  split <;> simp_all
  split <;> rfl

theorem escaped_mem {c : Char} (h : c = '.' ∨ c = '*' ∨ c = '[' ∨ c = '^' ∨ c = '$' ∨ c = '\\') :
    c ∈ ['.', '*', '[', ']', '^', '$', '\\'] := by
  rcases h with rfl | rfl | rfl | rfl | rfl | rfl <;> simp

theorem breAtom_escaped {start : Bool} {c : Char} {r : List Char}
    (h : c ∈ ['.', '*', '[', ']', '^', '$', '\\']) :
    breAtom start ('\\' :: c :: r) = some (.lit c, r) := by
  simp only [breAtom, if_pos h]

theorem breAtom_plain {start : Bool} {c : Char} {r : List Char}
    (h : c ∉ ['.', '*', '[', '\\']) : breAtom start (c :: r) = some (.lit c, r) := by
  simp only [List.mem_cons, not_or] at h
  unfold breAtom
  split <;> simp_all

theorem encode_read {pat : List Char} {as : List Atom} (h : Reads pat as) :
    ∀ (n m : Nat) (start t : Bool), pat.length < n →
      (encodePatternN n pat ++ dollar t).length < m → PlausiblePattern as →
      breAtoms m start (encodePatternN n pat ++ dollar t) = some (as.map tr, t) := by
  induction h with
  | nil =>
    intro n m start t hn hm _
    match n, m, hn, hm with
    | n + 1, m + 1, _, _ => cases t <;> simp [encodePatternN, dollar, breAtoms]
  | backslash =>
    intro n m start t hn hm _
    match n, m, hn, hm with
    | n + 1, m + 1, _, _ => cases t <;> simp [encodePatternN, dollar, breAtoms]
  | any s as _ ih =>
    intro n m start t hn hm hp
    match n, m, hn, hm with
    | n + 1, m + 1, hn, hm =>
      simp only [encodePatternN, List.cons_append, List.map_cons, tr] at hm ⊢
      exact breAtoms_one (by simp) (by simp) rfl (encode_head _ _ _).1
        (ih n m false t (by simpa using hn) (by simpa using hm) hp)
  | star s as _ ih =>
    intro n m start t hn hm hp
    match n, m, hn, hm with
    | n + 1, m + 1, hn, hm =>
      simp only [encodePatternN, List.cons_append, List.map_cons, tr] at hm ⊢
      exact breAtoms_star
        (ih n m false t (by simpa using hn) (by simp at hm ⊢; omega) hp)
  | quoted c s as _ ih =>
    intro n m start t hn hm hp
    match n, m, hn, hm with
    | n + 1, m + 1, hn, hm =>
      simp only [encodePatternN, List.map_cons, tr] at hm ⊢
      split
      · rename_i hc
        rw [if_pos hc] at hm
        simp only [List.cons_append]
        exact breAtoms_one (by simp) (by simp)
          (breAtom_escaped (escaped_mem hc)) (encode_head _ _ _).1
          (ih n m false t (by simp at hn ⊢; omega) (by simp at hm ⊢; omega) hp)
      · rename_i hc
        rw [if_neg hc] at hm
        simp only [List.cons_append]
        simp only [not_or] at hc
        exact breAtoms_one (by simp) (by simp_all)
          (breAtom_plain (by simp_all)) (encode_head _ _ _).1
          (ih n m false t (by simp at hn ⊢; omega) (by simp at hm ⊢; omega) hp)
  | set body s neg ts as hb _ ih =>
    intro n m start t hn hm hp
    match n, m, hn, hm with
    | n + 1, m + 1, hn, hm =>
      obtain ⟨out, h1, h2⟩ := encodeBracket_read hb s
      simp only [encodePatternN, List.cons_append, h1, List.map_cons, tr] at hm ⊢
      rw [List.append_assoc]
      exact breAtoms_one (by simp) (by simp) (by simp only [breAtom]; exact h2 hp.1 _)
        (encode_head _ _ _).1
        (ih n m false t (by simp at hn ⊢; omega) (by simp at hm ⊢; omega) hp.2)
  | noSet s as hb _ ih =>
    intro n m start t hn hm hp
    match n, m, hn, hm with
    | n + 1, m + 1, hn, hm =>
      have h1 : encodeBracket s = none := by
        cases he : encodeBracket s with
        | none => rfl
        | some p =>
          obtain ⟨body, neg, ts, h1, h2⟩ := encodeBracket_inv (out := p.1) (rest := p.2) he
          exact absurd h2 (hb body _ neg ts h1)
      simp only [encodePatternN, List.cons_append, h1, List.map_cons, tr] at hm ⊢
      exact breAtoms_one (by simp) (by simp) (breAtom_escaped (by simp)) (encode_head _ _ _).1
        (ih n m false t (by simpa using hn) (by simp at hm ⊢; omega) hp)
  | plain c s as h1 h2 h3 h4 _ ih =>
    intro n m start t hn hm hp
    match n, m, hn, hm with
    | n + 1, m + 1, hn, hm =>
      rw [encode_plain h1 h2 h3 h4] at hm ⊢
      simp only [List.map_cons, tr]
      split
      · rename_i hc
        rw [if_pos hc] at hm
        simp only [List.cons_append, List.nil_append]
        exact breAtoms_one (by simp) (by simp)
          (breAtom_escaped (by rcases hc with rfl | rfl | rfl <;> simp)) (encode_head _ _ _).1
          (ih n m false t (by simpa using hn) (by simp at hm ⊢; omega) hp)
      · rename_i hc
        rw [if_neg hc] at hm
        simp only [List.cons_append, List.nil_append]
        simp only [not_or] at hc
        exact breAtoms_one (by simp) (by simp_all)
          (breAtom_plain (by simp_all)) (encode_head _ _ _).1
          (ih n m false t (by simpa using hn) (by simpa using hm) hp)

/-- Compiling a pattern into a regular expression. -/
theorem compile_read {pat : List Char} {as : List Atom} (h : Reads pat as)
    (hp : PlausiblePattern as) (f : Flags) :
    tryCompileRegex pat f = some (.regex f ⟨f.headonly, as.map tr, f.tailonly, f.casefold⟩) := by
  have key : ∀ m start, (encodePattern pat ++ dollar f.tailonly).length < m →
      breAtoms m start (encodePattern pat ++ dollar f.tailonly) = some (as.map tr, f.tailonly) :=
    fun m start hm => encode_read h _ m start f.tailonly (by simp) hm hp
  unfold tryCompileRegex regcomp
  have h2 := encode_head (pat.length + 1) pat f.tailonly
  have := key _ true (Nat.lt_succ_self _)
  rw [← encodePattern] at h2
  simp only [dollar] at this h2
  cases hh : f.headonly with
  | true =>
    simp only [if_true, List.cons_append, List.nil_append, splitOff, this]
  | false =>
    simp only [Bool.false_eq_true, if_false, List.nil_append, splitOff_ne h2.2, this]

end Yash.Fnmatch
