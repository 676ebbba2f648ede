import Verif.Complete.Model
import Verif.Complete.Typed
/-!
# Lemmas about completion
-/
set_option autoImplicit false

namespace Yash.Complete

open Expand (Locale)
open Spec (Open Typed LongestPrefix)

/-! ## Quoting -/

/-- `iswblank` implies `iswspace` (C11 7.30.2.1.3). -/
def BlankIsSpace (L : Locale) : Prop := ∀ c, L.blank c = true → L.space c = true

theorem quotechars_mem (c : Ctxt) {d : Char} (h : (quotechars c).contains d = false) :
    d ∉ "|&;<>()$`\\\"'*?[]#~{}".toList := by
  unfold quotechars at h
  split at h
  · simp at h ⊢; simp [h]
  · simpa using h

theorem quoteNormal_typed {L : Locale} (hsp : BlankIsSpace L) (c : Ctxt) (s : List Char) {t v : List Char}
    (h : Typed L .nothing t v) : Typed L .nothing (t ++ quoteNormal L (quotechars c) s) (v ++ s) := by
  induction s generalizing t v with
  | nil => simpa [quoteNormal] using h
  | cons d s ih =>
    have key : Typed L .nothing (t ++ (if d = '\n' then ['\'', '\n', '\'']
        else if (quotechars c).contains d || L.space d then ['\\', d] else [d])) (v ++ [d]) := by
      by_cases h1 : d = '\n'
      · rw [if_pos h1]
        subst h1
        have := Typed.closeSingle _ _ (Typed.inSingle _ _ '\n' (Typed.openSingle _ _ h) (by decide))
        simpa using this
      · rw [if_neg h1]
        by_cases h2 : ((quotechars c).contains d || L.space d) = true
        · rw [if_pos h2]
          have := Typed.escaped _ _ d (Typed.backslash _ _ h) h1
          simpa using this
        · rw [if_neg h2]
          simp only [Bool.or_eq_true, not_or, Bool.not_eq_true] at h2
          have hm := quotechars_mem c h2.1
          have hb : L.blank d = false := by
            cases hb : L.blank d with
            | false => rfl
            | true => exact absurd (hsp d hb) (by simp [h2.2])
          simp at hm
          exact .char _ _ d h (by simp [hm, h1]) hb (by simp [hm])
    have := ih key
    simpa [quoteNormal] using this

theorem quoteSingle_typed {L : Locale} (s : List Char) {t v : List Char}
    (h : Typed L .single t v) : Typed L .single (t ++ quoteSingle s) (v ++ s) := by
  induction s generalizing t v with
  | nil => simpa [quoteSingle] using h
  | cons d s ih =>
    have key : Typed L .single (t ++ (if d ≠ '\'' then [d] else "'\\''".toList)) (v ++ [d]) := by
      by_cases h1 : d = '\''
      · subst h1
        have := Typed.openSingle _ _ (Typed.escaped _ _ '\'' (Typed.backslash _ _ (Typed.closeSingle _ _ h)) (by decide))
        simpa using this
      · rw [if_pos h1]
        exact .inSingle _ _ d h h1
    have := ih key
    simpa [quoteSingle] using this

theorem quoteDouble_typed {L : Locale} (s : List Char) {t v : List Char}
    (h : Typed L .double t v) : Typed L .double (t ++ quoteDouble s) (v ++ s) := by
  induction s generalizing t v with
  | nil => simpa [quoteDouble] using h
  | cons d s ih =>
    have key : Typed L .double (t ++ (if "$`\"\\".toList.contains d then ['\\', d] else [d])) (v ++ [d]) := by
      by_cases h1 : "$`\"\\".toList.contains d = true
      · rw [if_pos h1]
        have := Typed.escapedDouble _ _ d (Typed.doubleBackslash _ _ h) (by simpa using h1)
        simpa using this
      · rw [if_neg h1]
        exact .inDouble _ _ d h (by simpa using h1)
    have := ih key
    simpa [quoteDouble] using this

/-- How the context calls what is open. -/
def quoteOf : Open → Quote
  | .nothing => .normal
  | .backslash => .normalEscaped
  | .single => .single
  | .double => .double
  | .doubleBackslash => .doubleEscaped

theorem quote_typed {L : Locale} (hsp : BlankIsSpace L) (c : Ctxt) (s : List Char) (o : Open) {t v : List Char}
    (h : Typed L o.withoutBackslash t v) : Typed L o.withoutBackslash (t ++ quote L c s (quoteOf o)) (v ++ s) := by
  cases o with
  | nothing => exact quoteNormal_typed hsp c s h
  | backslash => exact quoteNormal_typed hsp c s h
  | single => exact quoteSingle_typed s h
  | double => exact quoteDouble_typed s h
  | doubleBackslash => exact quoteDouble_typed s h

/-! ## The longest common prefix -/

theorem prefixScan_iff (value : List Char) : ∀ (value2 : List Char) (j cpl n : Nat), j ≤ cpl → cpl ≤ j + value.length →
    n ≤ value.length → (j + n ≤ prefixScan value value2 j cpl ↔ j + n ≤ cpl ∧ value.take n <+: value2) := by
  induction value with
  | nil =>
    intro value2 j cpl n h1 h2 h3
    simp [prefixScan]
  | cons c value ih =>
    intro value2 j cpl n h1 h2 h3
    rw [prefixScan]
    by_cases hj : j < cpl
    · rw [if_pos hj]
      cases value2 with
      | nil =>
        rw [if_pos (by simp)]
        constructor
        · intro h
          have : n = 0 := by omega
          subst this
          exact ⟨by omega, by simp⟩
        · rintro ⟨_, hp⟩
          have := hp.length_le
          simp at this
          omega
      | cons d value2 =>
        by_cases hd : d = c
        · subst hd
          rw [if_neg (by simp)]
          cases n with
          | zero =>
            simp only [List.take_zero, List.nil_prefix, and_true]
            have := (ih value2 (j + 1) cpl 0 (by omega) (by simp at h2; omega) (by omega)).2 ⟨by omega, by simp⟩
            simp only [List.tail_cons]
            omega
          | succ n =>
            have := ih value2 (j + 1) cpl n (by omega) (by simp at h2; omega) (by simp at h3; omega)
            simp only [List.tail_cons, List.take_succ_cons, List.cons_prefix_cons, true_and]
            rw [show j + (n + 1) = j + 1 + n by omega]
            exact this
        · rw [if_pos (by simp [hd])]
          cases n with
          | zero => simp; omega
          | succ n => simp [List.take_succ_cons, List.cons_prefix_cons, Ne.symm hd]
    · rw [if_neg hj]
      have : j = cpl := by omega
      subst this
      constructor
      · intro h
        have : n = 0 := by omega
        subst this
        exact ⟨by omega, by simp⟩
      · exact fun h => h.1

theorem prefixLoop_iff (value : List Char) : ∀ (cs : List Cand) (cpl n : Nat), cpl ≤ value.length → n ≤ value.length →
    (n ≤ prefixLoop value cs cpl ↔ n ≤ cpl ∧ ∀ c ∈ cs, value.take n <+: c.value)
  | [], cpl, n, h1, h2 => by simp [prefixLoop]
  | c :: cs, cpl, n, h1, h2 => by
    have hs := fun m (hm : m ≤ value.length) => prefixScan_iff value c.value 0 cpl m (by omega) (by omega) hm
    simp only [Nat.zero_add] at hs
    have hle : prefixScan value c.value 0 cpl ≤ value.length := by
      by_cases h : prefixScan value c.value 0 cpl ≤ value.length
      · exact h
      · have : ∀ (value value2 : List Char) (j cpl : Nat), j ≤ cpl → prefixScan value value2 j cpl ≤ cpl := by
          intro value
          induction value with
          | nil => intro value2 j cpl hj; simp [prefixScan]
          | cons a value ih =>
            intro value2 j cpl hj
            rw [prefixScan]
            split
            · split
              · omega
              · exact ih _ _ _ (by omega)
            · omega
        have := this value c.value 0 cpl (by omega)
        omega
    rw [prefixLoop, prefixLoop_iff value cs _ n hle h2, hs n h2]
    simp only [List.forall_mem_cons, and_assoc]

/-- The text that is inserted while no candidate is selected. -/
theorem commonPrefix_longest (c : Cand) (cs : List Cand) : ∃ n, commonPrefixLength (c :: cs) = some n ∧ n ≤ c.value.length ∧
    LongestPrefix (c.value.take n) ((c :: cs).map (·.value)) := by
  have hl := fun m hm => prefixLoop_iff c.value cs c.value.length m (Nat.le_refl _) hm
  have hle : prefixLoop c.value cs c.value.length ≤ c.value.length := by
    by_cases h : prefixLoop c.value cs c.value.length ≤ c.value.length
    · exact h
    · have := (hl c.value.length (Nat.le_refl _)).1 (by omega)
      have hmono : ∀ (cs : List Cand) (m : Nat), m ≤ c.value.length → prefixLoop c.value cs m ≤ m := by
        intro cs
        induction cs with
        | nil => intro m _; simp [prefixLoop]
        | cons d cs ih =>
          intro m hm
          rw [prefixLoop]
          have h1 : ∀ (value value2 : List Char) (j cpl : Nat), j ≤ cpl → prefixScan value value2 j cpl ≤ cpl := by
            intro value
            induction value with
            | nil => intro value2 j cpl hj; simp [prefixScan]
            | cons a value ih =>
              intro value2 j cpl hj
              rw [prefixScan]
              split
              · split
                · omega
                · exact ih _ _ _ (by omega)
              · omega
          have h2 := h1 c.value d.value 0 m (by omega)
          exact Nat.le_trans (ih _ (by omega)) h2
      exact hmono cs _ (Nat.le_refl _)
  refine ⟨_, rfl, hle, ?_, ?_⟩
  · intro s hs
    rw [List.map_cons, List.mem_cons, List.mem_map] at hs
    rcases hs with rfl | ⟨d, hd, rfl⟩
    · exact List.take_prefix _ _
    · exact ((hl _ hle).1 (Nat.le_refl _)).2 d hd
  · intro q hq
    have h0 : q <+: c.value := hq _ (by simp)
    have hlen := h0.length_le
    have hq' : q = c.value.take q.length := (List.prefix_iff_eq_take.1 h0)
    have := (hl q.length hlen).2 ⟨hlen, fun d hd => by rw [← hq']; exact hq _ (by simp; exact Or.inr ⟨d, hd, rfl⟩)⟩
    rw [hq']
    exact List.take_prefix_take_left this

/-! ## Changes of the line -/

/-- A line with the cursor between two texts. -/
def at' (p r : List Char) : Buf := ⟨p ++ r, p.length⟩

theorem insertChar_at (c : Char) (p r : List Char) : insertChar c (at' p r) = at' (p ++ [c]) r := by
  simp [insertChar, at', replace]

def closing : Quote → List Char
  | .none | .normal | .normalEscaped => []
  | .single => ['\'']
  | .double | .doubleEscaped => ['"']

theorem closeQuote_at (q : Quote) (p r : List Char) : closeQuote q (at' p r) = at' (p ++ closing q) r := by
  cases q <;> simp [closeQuote, closing, insertChar_at]

def ending (c : Ctxt) : List Char :=
  if c.vbraced then ['}']
  else if c.ebraced then [',']
  else (if c.quoted then ['"'] else []) ++ (if c.type = .tilde then ['/'] else [' '])

theorem finishWord_at (c : Ctxt) (p r : List Char) : finishWord c (at' p r) = at' (p ++ ending c) r := by
  unfold finishWord ending
  split
  · exact insertChar_at _ _ _
  · split
    · exact insertChar_at _ _ _
    · split <;> split <;> simp [insertChar_at]

theorem replace_at (p y r z : List Char) : replace (p ++ y ++ r) p.length y.length z = p ++ z ++ r := by
  simp only [replace]
  rw [List.append_assoc p y r, List.take_left, ← List.append_assoc p y r, ← List.length_append, List.drop_left]

/-- What `update_main_buffer` does where the text `y` between `p` and the cursor is to be replaced with `z`. -/
theorem update_eq (L : Locale) (subst finish : Bool) (a : Active) (p y r z : List Char) (n : Nat) (q : Quote)
    (hp : updatePlace subst a.ctxt (at' (p ++ y) r) = some (n, p.length, q)) (ht : updateText L a n q = some z) :
    updateMainBuffer L subst finish a (at' (p ++ y) r) =
      match a.cands[a.selected]? with
      | none => some (at' (p ++ z) r)
      | some c =>
        if c.terminate = false then some (at' (p ++ z) r)
        else if finish = false then some (at' (p ++ z ++ closing q) r)
        else some (at' (p ++ z ++ closing q ++ ending a.ctxt) r) := by
  have hb : (⟨replace (at' (p ++ y) r).text p.length ((at' (p ++ y) r).index - p.length) z, p.length + z.length⟩ : Buf) =
      at' (p ++ z) r := by
    simp only [at', List.length_append, Nat.add_sub_cancel_left, replace_at]
  have hle : p.length ≤ (at' (p ++ y) r).index := by simp [at']
  unfold updateMainBuffer
  rw [hp]
  simp only [ht]
  rw [if_pos hle, hb, closeQuote_at, finishWord_at]
  cases a.cands[a.selected]? <;> rfl

end Yash.Complete
