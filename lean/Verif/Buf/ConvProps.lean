import Verif.Buf.ConvSpec
import Verif.Buf.Props
/-! # Property C92: conversions and formatting append exactly the text, whatever the size of the buffer -/
set_option autoImplicit false

namespace Yash.Buf

open Spec

variable {α B W σ : Type}

/-- Like `Holds`, but the terminator may be missing. -/
structure Text (b : Buffer α) (l : List α) : Prop where
  len : b.length = l.length
  room : l.length ≤ b.maxlength + 1
  size : b.cells.length = b.maxlength + 1
  elems : ∃ junk, b.cells = l.map some ++ junk

theorem Holds.text {k : Kind α} {b : Buffer α} {l : List α} (h : Holds k b l) : Text b l := by
  obtain ⟨h1, h2, h3, junk, h4⟩ := h
  exact ⟨h1, by omega, h3, _, h4⟩

theorem Holds.nul {k : Kind α} {b : Buffer α} {l : List α} (h : Holds k b l) : b.cells[b.length]? = some (some k.nul) := by
  obtain ⟨h1, h2, h3, junk, h4⟩ := h
  rw [h4, List.getElem?_append_right (by simp [h1])]
  simp [h1]

theorem Holds.assertNul [DecidableEq α] {k : Kind α} {b : Buffer α} {l : List α} (h : Holds k b l) : Buf.assertNul k b = some () := by
  rw [Buf.assertNul, if_pos h.nul]

/-- Writing after the text, without counting it. -/
theorem Text.write {b : Buffer α} {l : List α} (h : Text b l) (w : List α) (hw : l.length + w.length ≤ b.maxlength + 1) :
    ∃ cells, blit b.cells b.length (w.map some) = some cells ∧ Text { b with cells } l ∧ Text { b with cells, length := b.length + w.length } (l ++ w) := by
  obtain ⟨h1, h2, h3, junk, h4⟩ := h
  have hb : b.cells.length = l.length + junk.length := by rw [h4]; simp
  refine ⟨l.map some ++ (w.map some ++ junk.drop w.length), ?_, ⟨h1, h2, ?_, _, rfl⟩, ⟨by simp [h1], by simpa using hw, ?_, junk.drop w.length, by simp⟩⟩
  · rw [blit, if_pos (by simp; omega), h4, List.take_append_of_le_length (by simp; omega), List.take_of_length_le (by simp; omega)]
    rw [show (List.drop (b.length + (List.map some w).length) (List.map some l ++ junk)) = junk.drop w.length by
      rw [List.drop_append, List.drop_of_length_le (by simp; omega)]; simp [h1]]
    simp
  · simp only [List.length_append, List.length_map, List.length_drop]; omega
  · simp only [List.length_append, List.length_map, List.length_drop]; omega

/-- Writing with a terminator. -/
theorem Text.writeNul {k : Kind α} {b : Buffer α} {l : List α} (h : Text b l) (w : List α) (hw : l.length + w.length ≤ b.maxlength) :
    ∃ cells, blit b.cells b.length ((w ++ [k.nul]).map some) = some cells ∧ Text { b with cells } l ∧ Holds k { b with cells, length := b.length + w.length } (l ++ w) := by
  obtain ⟨c, h1, h2, h3⟩ := h.write (w ++ [k.nul]) (by simp; omega)
  refine ⟨c, h1, h2, ?_⟩
  obtain ⟨g1, g2, g3, junk, g4⟩ := h3
  have := h.len
  exact ⟨by simp [this], by simp only; omega, g3, junk, by simpa using g4⟩

theorem Text.poke {k : Kind α} {b : Buffer α} {l : List α} (h : Text b l) (hl : l.length ≤ b.maxlength) :
    ∃ cells, Buf.poke b.cells b.length k.nul = some cells ∧ Holds k { b with cells } l := by
  obtain ⟨h1, h2, h3, junk, h4⟩ := h
  have hj : junk ≠ [] := by
    rintro rfl
    rw [h4] at h3; simp at h3; omega
  obtain ⟨x, j, rfl⟩ := List.exists_cons_of_ne_nil hj
  refine ⟨l.map some ++ some k.nul :: j, ?_, ⟨h1, by simp only; omega, ?_, j, rfl⟩⟩
  · rw [Buf.poke, if_pos (by omega), h4, List.set_append_right _ _ (by simp; omega)]
    simp [h1]
  · rw [h4] at h3; simpa using h3

theorem Text.ensureMax {k : Kind α} {b : Buffer α} {l : List α} (h : Text b l) (n : Nat) (hl : l.length ≤ b.maxlength ∨ b.maxlength < n) :
    ∃ b', Buf.ensureMax k b n = some b' ∧ Text b' l ∧ n ≤ b'.maxlength ∧ l.length ≤ b'.maxlength ∧ b.maxlength ≤ b'.maxlength := by
  unfold Buf.ensureMax
  have hh := h
  obtain ⟨h1, h2, h3, junk, h4⟩ := h
  by_cases hn : n ≤ b.maxlength
  · rw [if_pos hn]
    exact ⟨b, rfl, hh, hn, by omega, Nat.le_refl _⟩
  · rw [if_neg hn]
    simp only
    generalize hm1 : (if n < b.maxlength + b.maxlength / 2 then b.maxlength + b.maxlength / 2 else n) = m1
    generalize hm2 : (if m1 < b.maxlength + k.growth then b.maxlength + k.growth else m1) = m2
    have hm1' : n ≤ m1 := by split at hm1 <;> omega
    have hm2' : n ≤ m2 := by split at hm2 <;> omega
    have hlen : (resize b.cells (m2 + 1)).length = m2 + 1 := by
      simp only [resize, List.length_append, List.length_take, List.length_replicate]; omega
    refine ⟨_, by simp only [setMax, Buf.poke, hlen, Nat.lt_succ_self, if_true]; rfl, ⟨?_, ?_, ?_, ?_⟩, hm2', ?_, ?_⟩
    · simp only; split <;> omega
    · simp only; omega
    · simp [hlen]
    · have : resize b.cells (m2 + 1) = l.map some ++ (junk ++ List.replicate (m2 + 1 - b.cells.length) none) := by
        rw [resize, List.take_of_length_le (by omega)]
        conv => lhs; rw [h4]
        rw [List.append_assoc, h4]
      simp only [this]
      rw [List.set_append_right _ _ (by simp; omega)]
      exact ⟨_, rfl⟩
    · simp only; omega
    · simp only; omega

/-! ## Conversions -/

theorem Encodes.append {C : Codec B W σ} {p1 p2 p3 : σ} {a b : List W} {x y : List B} (h1 : Encodes C p1 a x p2) (h2 : Encodes C p2 b y p3) :
    Encodes C p1 (a ++ b) (x ++ y) p3 := by
  induction h1 with
  | nil _ => exact h2
  | cons h _ ih => rw [List.append_assoc]; exact .cons h (ih h2)

theorem Decodes.append {C : Codec B W σ} {p1 p2 p3 : σ} {s t u : List B} {x y : List W} (h1 : Decodes C p1 s x p2 t) (h2 : Decodes C p2 t y p3 u) :
    Decodes C p1 s (x ++ y) p3 u := by
  induction h1 with
  | nil _ _ => exact h2
  | cons h _ ih => exact .cons h (ih h2)

/-- What `wcsnrtombs` does. -/
theorem wcsnrtombs_spec {C : Codec B W σ} (hC : Lawful C) (s : List W) (n len : Nat) (ps : σ) :
    match wcsnrtombs C s n len ps with
    | (w, .ended ps') => ∃ w0 p, s.length < n ∧ Encodes C ps s w0 p ∧ w = w0 ++ C.reset p ∧ ps' = C.init ∧ w.length + 1 ≤ len
    | (w, .limit rest ps') => ∃ pre, s = pre ++ rest ∧ pre.length ≤ n ∧ Encodes C ps pre w ps' ∧ w.length ≤ len ∧ (pre.length = n ∨ (C.max ≤ len → pre ≠ []))
    | (w, .invalid rest ps') => ∃ pre c t, s = pre ++ rest ∧ rest = c :: t ∧ pre.length < n ∧ Encodes C ps pre w ps' ∧ C.enc ps' c = none ∧ w.length ≤ len := by
  induction s generalizing n len ps with
  | nil =>
    cases n with
    | zero => exact ⟨[], rfl, Nat.le_refl _, .nil _, Nat.zero_le _, .inl rfl⟩
    | succ n =>
      rw [wcsnrtombs]
      have := hC.reset ps
      split
      · next heq =>
        split at heq
        · cases heq; exact ⟨[], ps, by simp, .nil _, rfl, rfl, by omega⟩
        · cases heq
      · next heq =>
        split at heq
        · cases heq
        · cases heq; exact ⟨[], rfl, by simp, .nil _, Nat.zero_le _, .inr fun _ => by omega⟩
      · next heq => split at heq <;> cases heq
  | cons c s ih =>
    cases n with
    | zero => exact ⟨[], rfl, Nat.le_refl _, .nil _, Nat.zero_le _, .inl rfl⟩
    | succ n =>
      rw [wcsnrtombs]
      cases he : C.enc ps c with
      | none => exact ⟨[], c, s, rfl, rfl, by simp, .nil _, he, Nat.zero_le _⟩
      | some q =>
        obtain ⟨bs, ps'⟩ := q
        have hl := hC.enc _ _ _ _ he
        simp only
        by_cases hb : bs.length ≤ len
        · rw [if_pos hb]
          have ih := ih n (len - bs.length) ps'
          cases hr : wcsnrtombs C s n (len - bs.length) ps' with
          | mk w out =>
            rw [hr] at ih
            cases out with
            | ended p =>
              obtain ⟨w0, p1, a1, a2, a3, a4, a5⟩ := ih
              exact ⟨bs ++ w0, p1, by simp; omega, .cons he a2, by simp [a3], a4, by simp; omega⟩
            | limit rest p =>
              obtain ⟨pre, a1, a2, a3, a4, a5⟩ := ih
              exact ⟨c :: pre, by simp [a1], by simp; omega, .cons he a3, by simp; omega, .inr fun _ => by simp⟩
            | invalid rest p =>
              obtain ⟨pre, d, t, a1, a2, a3, a4, a5, a6⟩ := ih
              exact ⟨c :: pre, d, t, by simp [a1], a2, by simp; omega, .cons he a4, a5, by simp; omega⟩
        · rw [if_neg hb]
          exact ⟨[], rfl, by simp, .nil _, Nat.zero_le _, .inr fun _ => by omega⟩

/-- What `mbsrtowcs` does. -/
theorem mbsrtowcs_spec {C : Codec B W σ} (hC : Lawful C) (s : List B) (len : Nat) (ps : σ) :
    match mbsrtowcs C s len ps with
    | (w, .ended _) => (∃ p, Decodes C ps s w p []) ∧ w.length < len
    | (w, .limit rest ps') => Decodes C ps s w ps' rest ∧ w.length = len ∧ (0 < len → rest.length < s.length)
    | (w, .invalid rest ps') => Decodes C ps s w ps' rest ∧ rest ≠ [] ∧ C.dec ps' rest = none ∧ w.length < len := by
  induction len generalizing s ps with
  | zero => exact ⟨.nil _ _, rfl, fun h => absurd h (Nat.lt_irrefl _)⟩
  | succ len ih =>
    cases s with
    | nil => exact ⟨⟨ps, .nil _ _⟩, by simp⟩
    | cons b s =>
      rw [mbsrtowcs]
      cases hd : C.dec ps (b :: s) with
      | none => exact ⟨.nil _ _, by simp, hd, by simp⟩
      | some q =>
        obtain ⟨k, w, ps'⟩ := q
        have hk := hC.dec _ _ _ _ _ hd
        have hcons : ∀ {v p r}, Decodes C ps' ((b :: s).drop k) v p r → Decodes C ps (b :: s) (w :: v) p r := by
          intro v p r h
          have e : (b :: s).take k ++ (b :: s).drop k = b :: s := List.take_append_drop ..
          rw [← e]
          refine .cons ?_ h
          rw [e, hd, List.length_take, Nat.min_eq_left hk.2]
        have ih := ih ((b :: s).drop k) ps'
        simp only
        cases hr : mbsrtowcs C ((b :: s).drop k) len ps' with
        | mk v out =>
          rw [hr] at ih
          cases out with
          | ended p =>
            obtain ⟨⟨p, a1⟩, a2⟩ := ih
            exact ⟨⟨p, hcons a1⟩, by simp; omega⟩
          | limit rest p =>
            obtain ⟨a1, a2, a3⟩ := ih
            refine ⟨hcons a1, by simp [a2], fun _ => ?_⟩
            have hle : rest.length ≤ ((b :: s).drop k).length := by
              clear a2 a3 hr hcons hd
              generalize (b :: s).drop k = u at a1
              clear hk
              induction a1 with
              | nil => exact Nat.le_refl _
              | cons _ _ ih => rw [List.length_append]; omega
            have : ((b :: s).drop k).length < (b :: s).length := by
              rw [List.length_drop]
              have := hk.1; have := hk.2; omega
            omega
          | invalid rest p =>
            obtain ⟨a1, a2, a3, a4⟩ := ih
            exact ⟨hcons a1, a2, a3, by simp; omega⟩

/-- The loop of `sb_wcsncat`. -/
theorem wcsncat_loop [DecidableEq B] {k : Kind B} {C : Codec B W σ} (hC : Lawful C) (fuel : Nat) (b : Buffer B) (l : List B) (s : List W) (n : Nat) (ps : σ)
    (h : Text b l) (hl : l.length ≤ b.maxlength) (hf : s.length + 1 + (if C.max ≤ b.maxlength - b.length then 0 else 1) ≤ fuel) :
    ∃ b' r ps', sbWcsncat k C fuel b s n ps = some (b', r, ps') ∧
      ((r = none ∧ ∃ bs p, Encodes C ps (s.take n) bs p ∧ Holds k b' (l ++ bs ++ if s.length < n then C.reset p else []) ∧ ps' = if s.length < n then C.init else p) ∨
       (∃ pre c t bs part, r = some (c :: t) ∧ s = pre ++ c :: t ∧ pre.length < n ∧ Encodes C ps pre bs ps' ∧ C.enc ps' c = none ∧ part <+: bs ∧ Holds k b' (l ++ part))) := by
  induction fuel generalizing b l s n ps with
  | zero => omega
  | succ fuel ih =>
    have hs := wcsnrtombs_spec hC s n (b.maxlength - b.length) ps
    have hlen := h.len
    rw [sbWcsncat]
    cases hr : wcsnrtombs C s n (b.maxlength - b.length) ps with
    | mk w out =>
      rw [hr] at hs
      cases out with
      | invalid rest p =>
        obtain ⟨pre, c, t, a1, a2, a3, a4, a5, a6⟩ := hs
        obtain ⟨c1, e1, t1, _⟩ := h.write w (by omega)
        obtain ⟨c2, e2, t2⟩ := t1.poke (k := k) hl
        simp only [e1, Option.bind_eq_bind, Option.bind_some]
        simp only at e2
        simp only [e2, Option.bind_some, t2.assertNul]
        refine ⟨_, _, _, rfl, .inr ⟨pre, c, t, w, [], by rw [a2], by rw [a1, a2], a3, a4, a5, List.nil_prefix, ?_⟩⟩
        simpa using t2
      | ended p =>
        obtain ⟨w0, q, a1, a2, a3, a4, a5⟩ := hs
        obtain ⟨c1, e1, _, t1⟩ := h.writeNul (k := k) w (by omega)
        simp only [e1, Option.bind_eq_bind, Option.bind_some, t1.assertNul]
        refine ⟨_, _, _, rfl, .inl ⟨rfl, w0, q, ?_, ?_, ?_⟩⟩
        · rw [List.take_of_length_le (by omega)]; exact a2
        · rw [if_pos a1, List.append_assoc, ← a3]; exact t1
        · rw [if_pos a1, a4]
      | limit rest p =>
        obtain ⟨pre, a1, a2, a3, a4, a5⟩ := hs
        obtain ⟨c1, e1, _, t1⟩ := h.write w (by omega)
        simp only [e1, Option.bind_eq_bind, Option.bind_some]
        have hcons : s.length - rest.length = pre.length := by rw [a1]; simp
        rw [hcons, if_neg (by omega)]
        by_cases hn : n - pre.length = 0
        · rw [if_pos hn]
          obtain ⟨c2, e2, t2⟩ := t1.poke (k := k) (by simp only [List.length_append]; omega)
          simp only at e2
          simp only [e2, Option.bind_some, t2.assertNul]
          have hnle : ¬s.length < n := by rw [a1, List.length_append]; omega
          refine ⟨_, _, _, rfl, .inl ⟨rfl, w, p, ?_, ?_, ?_⟩⟩
          · rw [a1, List.take_append_of_le_length (by omega), List.take_of_length_le (by omega)]; exact a3
          · rw [if_neg hnle, List.append_nil]; exact t2
          · rw [if_neg hnle]
        · rw [if_neg hn]
          obtain ⟨b2, e2, t2, m1, m2, m3⟩ := t1.ensureMax (k := k) (b.maxlength + C.max) (.inl (by simp only [List.length_append]; omega))
          simp only at e2 m3
          simp only [e2, Option.bind_some]
          have hlen2 := t2.len
          rw [List.length_append] at hlen2 m2
          have hroom : C.max ≤ b2.maxlength - b2.length := by omega
          have hfuel : rest.length + 1 + (if C.max ≤ b2.maxlength - b2.length then 0 else 1) ≤ fuel := by
            rw [if_pos hroom]
            have hsl : s.length = pre.length + rest.length := by rw [a1]; simp
            rcases a5 with a5 | a5
            · omega
            · split at hf
              · next hm =>
                have := List.length_pos_iff.2 (a5 hm)
                omega
              · omega
          obtain ⟨b', r, ps', e3, hres⟩ := ih b2 (l ++ w) rest (n - pre.length) p t2 (by rw [List.length_append]; omega) hfuel
          refine ⟨b', r, ps', e3, ?_⟩
          have hiff : rest.length < n - pre.length ↔ s.length < n := by rw [a1, List.length_append]; omega
          rcases hres with ⟨r1, bs, q, g1, g2, g3⟩ | ⟨pre', c, t, bs, part, g1, g2, g3, g4, g5, g6, g7⟩
          · refine .inl ⟨r1, w ++ bs, q, ?_, ?_, ?_⟩
            · rw [a1, List.take_append, List.take_of_length_le a2]
              exact Encodes.append a3 g1
            · simp only [hiff] at g2
              simpa [List.append_assoc] using g2
            · simp only [hiff] at g3; exact g3
          · refine .inr ⟨pre ++ pre', c, t, w ++ bs, w ++ part, g1, by rw [a1, g2, List.append_assoc], ?_, Encodes.append a3 g4, g5, ?_, ?_⟩
            · rw [List.length_append]; omega
            · exact (List.prefix_append_right_inj w).2 g6
            · rw [← List.append_assoc]; exact g7

/-- **C92 (wide strings to bytes).** For every content and capacity of the buffer, `sb_wcsncat` ends, within one round per character and two more, without leaving the block.
Either the first `n` characters of the string can be converted: then exactly their bytes are appended, with those that reset the shift state if the string ends before; or the result is
the rest of the string from the first character that cannot be converted. -/
theorem C92_wcsncat [DecidableEq B] {k : Kind B} {C : Codec B W σ} (hC : Lawful C) {b : Buffer B} {l : List B} (h : Holds k b l) (s : List W) (n : Nat) (ps : σ) (fuel : Nat)
    (hf : s.length + 2 ≤ fuel) :
    ∃ b' r ps', sbWcsncat k C fuel b s n ps = some (b', r, ps') ∧
      ((r = none ∧ ∃ bs p, Encodes C ps (s.take n) bs p ∧ Holds k b' (l ++ bs ++ if s.length < n then C.reset p else []) ∧ ps' = if s.length < n then C.init else p) ∨
       (∃ pre c t bs part, r = some (c :: t) ∧ s = pre ++ c :: t ∧ pre.length < n ∧ Encodes C ps pre bs ps' ∧ C.enc ps' c = none ∧ part <+: bs ∧ Holds k b' (l ++ part))) :=
  wcsncat_loop hC fuel b l s n ps h.text (by have := h.len; have := h.room; omega) (by split <;> omega)

/-- **C92 (one wide character).** -/
theorem C92_wccat [DecidableEq B] {k : Kind B} {C : Codec B W σ} (hC : Lawful C) {b : Buffer B} {l : List B} (h : Holds k b l) (c : Option W) (ps : σ) :
    ∃ b' ok ps', sbWccat k C b c ps = some (b', ok, ps') ∧
      match c with
      | none => ok = true ∧ Holds k b' (l ++ C.reset ps) ∧ ps' = C.init
      | some c =>
        match C.enc ps c with
        | none => ok = false ∧ Holds k b' l
        | some (bs, p) => ok = true ∧ Holds k b' (l ++ bs) ∧ ps' = p := by
  have h1 := h.len
  have h2 := h.room
  obtain ⟨b1, e1, t1, m1, m2, m3⟩ := h.text.ensureMax (k := k) (b.length + C.max) (.inl (by omega))
  have hl1 := t1.len
  unfold sbWccat
  simp only [e1, Option.bind_eq_bind, Option.bind_some]
  cases c with
  | none =>
    have hr := hC.reset ps
    obtain ⟨c2, e2, _, t2⟩ := t1.writeNul (k := k) (C.reset ps) (by omega)
    have hlen : (C.reset ps ++ [k.nul]).length = (C.reset ps).length + 1 := by simp
    simp only [e2, Option.bind_some, hlen]
    rw [if_neg (by simp; omega)]
    have : b1.length + ((C.reset ps).length + 1) - 1 = b1.length + (C.reset ps).length := by omega
    simp only [this, t2.assertNul, Option.bind_some]
    exact ⟨_, _, _, rfl, rfl, t2, rfl⟩
  | some c =>
    simp only
    cases he : C.enc ps c with
    | none =>
      obtain ⟨c2, e2, t2⟩ := t1.poke (k := k) m2
      simp only [e2, Option.bind_some]
      exact ⟨_, _, _, rfl, rfl, t2⟩
    | some q =>
      obtain ⟨bs, p⟩ := q
      have hr := hC.enc _ _ _ _ he
      obtain ⟨c2, e2, _, t2⟩ := t1.write bs (by omega)
      obtain ⟨c3, e3, t3⟩ := t2.poke (k := k) (by simp only [List.length_append]; omega)
      simp only at e3
      simp only [e2, Option.bind_some]
      rw [if_neg (by simp; omega)]
      simp only [e3, Option.bind_some, t3.assertNul]
      exact ⟨_, _, _, rfl, rfl, t3, rfl⟩

theorem mbscat_loop {k : Kind W} {C : Codec B W σ} (hC : Lawful C) (fuel : Nat) (b : Buffer W) (l : List W) (s : List B) (ps : σ)
    (h : Text b l) (hl : l.length ≤ b.maxlength) (hf : s.length + 1 ≤ fuel) :
    ∃ b' r w part p rest, mbscatLoop k C fuel b s ps = some (b', r) ∧ Text b' (l ++ part) ∧ (l ++ part).length ≤ b'.maxlength ∧ Decodes C ps s w p rest ∧
      ((r = none ∧ rest = [] ∧ part = w) ∨ (r = some rest ∧ rest ≠ [] ∧ C.dec p rest = none ∧ part <+: w)) := by
  induction fuel generalizing b l s ps with
  | zero => omega
  | succ fuel ih =>
    have hs := mbsrtowcs_spec hC s (b.maxlength - b.length + 1) ps
    have hlen := h.len
    rw [mbscatLoop]
    cases hr : mbsrtowcs C s (b.maxlength - b.length + 1) ps with
    | mk w out =>
      rw [hr] at hs
      cases out with
      | invalid rest p =>
        obtain ⟨a1, a2, a3, a4⟩ := hs
        obtain ⟨c1, e1, t1, _⟩ := h.write w (by omega)
        simp only [e1, Option.bind_eq_bind, Option.bind_some]
        exact ⟨_, _, w, [], p, rest, rfl, by simpa using t1, by simpa using hl, a1, .inr ⟨rfl, a2, a3, List.nil_prefix⟩⟩
      | ended p =>
        obtain ⟨⟨q, a1⟩, a2⟩ := hs
        obtain ⟨c1, e1, _, t1⟩ := h.writeNul (k := k) w (by omega)
        simp only [e1, Option.bind_eq_bind, Option.bind_some]
        exact ⟨_, _, w, w, q, [], rfl, t1.text, by simp only [List.length_append]; omega, a1, .inl ⟨rfl, rfl, rfl⟩⟩
      | limit rest p =>
        obtain ⟨a1, a2, a3⟩ := hs
        obtain ⟨c1, e1, _, t1⟩ := h.write w (by omega)
        simp only [e1, Option.bind_eq_bind, Option.bind_some]
        obtain ⟨b2, e2, t2, m1, m2, m3⟩ := t1.ensureMax (k := k) (b.maxlength + 1) (.inr (by simp only; omega))
        simp only [e2, Option.bind_some]
        have := a3 (by omega)
        obtain ⟨b', r, w', part, p', rest', g1, g2, g3, g4, g5⟩ := ih b2 (l ++ w) rest p t2 m2 (by omega)
        refine ⟨b', r, w ++ w', w ++ part, p', rest', g1, by rw [← List.append_assoc]; exact g2, by rw [← List.append_assoc]; exact g3, Decodes.append a1 g4, ?_⟩
        rcases g5 with ⟨x, y, z⟩ | ⟨x, y, z, u⟩
        · exact .inl ⟨x, y, by rw [z]⟩
        · exact .inr ⟨x, y, z, (List.prefix_append_right_inj w).2 u⟩

/-- **C92 (bytes to wide strings).** For every content and capacity of the buffer, `wb_mbscat` ends, within one round per byte and one more, without leaving the block, although the block is
filled up to the last cell in between. Either exactly the characters that are in the string are appended, or the result is the rest of the string from the first character that cannot be
converted. -/
theorem C92_mbscat {k : Kind W} {C : Codec B W σ} (hC : Lawful C) {b : Buffer W} {l : List W} (h : Holds k b l) (s : List B) (fuel : Nat) (hf : s.length + 1 ≤ fuel) :
    ∃ b' r w part p rest, wbMbscat k C fuel b s = some (b', r) ∧ Holds k b' (l ++ part) ∧ Decodes C C.init s w p rest ∧
      ((r = none ∧ rest = [] ∧ part = w) ∨ (r = some rest ∧ rest ≠ [] ∧ C.dec p rest = none ∧ part <+: w)) := by
  obtain ⟨b1, r, w, part, p, rest, e1, t1, m1, d1, hres⟩ := mbscat_loop (k := k) hC fuel b l s C.init h.text (by have := h.len; have := h.room; omega) hf
  obtain ⟨c, e2, t2⟩ := t1.poke (k := k) m1
  unfold wbMbscat
  simp only [e1, Option.bind_eq_bind, Option.bind_some, e2]
  exact ⟨_, r, w, part, p, rest, rfl, t2, d1, hres⟩

/-- **C92 (round trip).** In an encoding without shift states in which characters are found again in their bytes, every wide string that can be converted to bytes with
`malloc_wcstombs` is what `malloc_mbstowcs` makes of these bytes; `sizeMax` is `Size_max`. -/
theorem C92_round_trip [DecidableEq B] {kb : Kind B} {kw : Kind W} {C : Codec B W σ} (hC : Lawful C) (hreset : ∀ ps, C.reset ps = [])
    (hinv : ∀ ps c bs ps', C.enc ps c = some (bs, ps') → kb.nul ∉ bs ∧ ∀ rest, C.dec ps (bs ++ rest) = some (bs.length, c, ps'))
    (s : List W) (sizeMax : Nat) (hs : s.length < sizeMax) (fuel : Nat) (hf : s.length + 2 ≤ fuel) :
    ∃ r, mallocWcsntombs kb C fuel s sizeMax = some r ∧
      ((r = none ∧ ∃ pre c t bs p, s = pre ++ c :: t ∧ Encodes C C.init pre bs p ∧ C.enc p c = none) ∨
       (∃ b bs, r = some b ∧ Holds kb b bs ∧ kb.nul ∉ bs ∧ ∀ fuel', bs.length + 1 ≤ fuel' → ∃ b', mallocMbstowcs kw C fuel' bs = some (some b') ∧ Holds kw b' s)) := by
  obtain ⟨b0, i1, i2⟩ := init_holds kb 15
  obtain ⟨b1, r, ps', e1, hres⟩ := C92_wcsncat hC i2 s sizeMax C.init fuel hf
  unfold mallocWcsntombs
  simp only [i1, e1, Option.bind_eq_bind, Option.bind_some]
  rcases hres with ⟨rfl, bs, p, g1, g2, g3⟩ | ⟨pre, c, t, bs, part, rfl, g2, _, g4, g5, _⟩
  · refine ⟨_, rfl, .inr ⟨b1, bs, rfl, ?_, ?_, ?_⟩⟩
    · simpa [hreset] using g2
    · clear g2 g3
      generalize C.init = p0 at g1
      generalize s.take sizeMax = s0 at g1
      induction g1 with
      | nil => simp
      | cons he _ ih => simpa using ⟨(hinv _ _ _ _ he).1, ih⟩
    · intro fuel' hf'
      rw [List.take_of_length_le (by omega)] at g1
      have key : ∀ {ps s bs p}, Encodes C ps s bs p → ∀ {w q rest}, Decodes C ps bs w q rest → (rest = [] ∨ C.dec q rest = none) → w = s ∧ rest = [] := by
        intro ps s bs p h
        induction h with
        | nil ps =>
          intro w q rest hd hr
          generalize hu : ([] : List B) = u at hd
          cases hd with
          | nil => exact ⟨rfl, rfl⟩
          | cons hd' _ =>
            rw [← hu] at hd'
            have := hC.dec _ _ _ _ _ hd'
            simp only [List.length_nil] at this; omega
        | @cons ps ps1 ps2 c s x y he _ ih =>
          intro w q rest hd hr
          have hx := (hinv _ _ _ _ he).2 y
          generalize hu : x ++ y = u at hd
          cases hd with
          | nil =>
            rw [← hu] at hr
            have := (hC.enc _ _ _ _ he).1
            rcases hr with hr | hr
            · rw [List.append_eq_nil_iff] at hr; rw [hr.1] at this; exact absurd this (by simp)
            · rw [hx] at hr; cases hr
          | @cons _ ps1' _ x' y' _ c' w' hd' hd2 =>
            rw [← hu, hx] at hd'
            simp only [Option.some.injEq, Prod.mk.injEq] at hd'
            obtain ⟨hx', rfl, rfl⟩ := hd'
            have : y = y' := (List.append_inj hu hx').2
            subst this
            obtain ⟨r1, r2⟩ := ih hd2 hr
            exact ⟨by rw [r1], r2⟩
      obtain ⟨b0', j1, j2⟩ := init_holds kw 15
      obtain ⟨b', r', w, part, q, rest, e2, h2, h3, h4⟩ := C92_mbscat hC j2 bs fuel' hf'
      unfold mallocMbstowcs
      simp only [j1, e2, Option.bind_eq_bind, Option.bind_some]
      have hk := key g1 h3 (h4.imp (·.2.1) (·.2.2.1))
      rcases h4 with ⟨rfl, _, rfl⟩ | ⟨_, hne, _⟩
      · exact ⟨b', rfl, by rw [← hk.1]; simpa using h2⟩
      · exact absurd hk.2 hne
  · exact ⟨_, rfl, .inl ⟨rfl, pre, c, t, bs, ps', g2, g4, g5⟩⟩

/-! ## Formatting -/

/-- **C92 (formatting bytes).** `sb_vprintf` appends exactly the formatted text, whatever the capacity of the buffer, and returns its length; if formatting fails, the text in the buffer
is unchanged. -/
theorem C92_vprintf [DecidableEq α] {k : Kind α} {b : Buffer α} {l : List α} (h : Holds k b l) (text : Option (List α)) (garbage : List α) :
    ∃ b', sbVprintf k b text garbage = some (b', text.map List.length) ∧ Holds k b' (l ++ text.getD []) := by
  have h1 := h.len
  have h2 := h.room
  unfold sbVprintf
  cases text with
  | none =>
    obtain ⟨c1, e1, t1, _⟩ := h.text.write (garbage.take (b.maxlength - b.length + 1)) (by rw [List.length_take]; omega)
    obtain ⟨c2, e2, t2⟩ := t1.poke (k := k) (by simp only; omega)
    simp only at e2
    simp only [vsnprintf, e1, Option.bind_eq_bind, Option.bind_some, Option.map_some, e2, t2.assertNul]
    exact ⟨_, rfl, by simpa using t2⟩
  | some t =>
    have hw : ∀ b : Buffer α, Text b l → l.length ≤ b.maxlength → ∃ c, vsnprintf k (some t) garbage b.cells b.length (b.maxlength - b.length + 1) = some (c, some t.length) ∧
        Text { b with cells := c } l ∧ (t.length < b.maxlength - b.length + 1 → Holds k { b with cells := c, length := b.length + t.length } (l ++ t)) := by
      intro b hb hr
      have hbl := hb.len
      obtain ⟨c, e, t1, t2⟩ := hb.writeNul (k := k) (t.take (b.maxlength - b.length + 1 - 1)) (by rw [List.length_take]; omega)
      refine ⟨c, by simp only [vsnprintf, e, Option.map_some], t1, fun ht => ?_⟩
      rw [List.take_of_length_le (by omega)] at t2
      exact t2
    obtain ⟨c1, e1, t1, g1⟩ := hw b h.text (by omega)
    simp only [e1, Option.bind_eq_bind, Option.bind_some]
    by_cases hfit : b.maxlength - b.length + 1 ≤ t.length
    · rw [if_pos hfit]
      obtain ⟨b2, e2, t2, m1, m2, m3⟩ := t1.ensureMax (k := k) (b.length + t.length) (.inl (by simp only; omega))
      have hl2 := t2.len
      obtain ⟨c3, e3, t3, g3⟩ := hw b2 t2 m2
      have hlt : t.length < b2.maxlength - b2.length + 1 := by omega
      simp only [e2, Option.bind_some, e3]
      rw [if_pos hlt]
      have g3 := g3 hlt
      simp only [g3.assertNul, Option.bind_some]
      exact ⟨_, rfl, g3⟩
    · rw [if_neg hfit]
      rw [if_pos (by omega)]
      have g1 := g1 (by omega)
      simp only [g1.assertNul, Option.bind_some]
      exact ⟨_, rfl, g1⟩

/-- The loop of `wb_vwprintf`. -/
theorem vwprintf_loop {k : Kind α} (tells : Bool) (text : Option (List α)) (garbage : List α) (rounds : Nat) (b : Buffer α) (l : List α) (h : Text b l) (hl : l.length ≤ b.maxlength) :
    (∃ b' t, vwprintfLoop k tells text garbage (rounds + 1) b none = some (b', some t.length) ∧ text = some t ∧ Holds k { b' with length := b'.length + t.length } (l ++ t)) ∨
    (∃ b', vwprintfLoop k tells text garbage (rounds + 1) b none = some (b', none) ∧ Text b' l ∧ l.length ≤ b'.maxlength ∧
      ∀ t, text = some t → tells = false ∧ 2 ^ rounds * (b.maxlength - b.length + 2) ≤ t.length + 1) ∨
    (rounds = 0 ∧ tells = true) := by
  have hlen := h.len
  induction rounds generalizing b with
  | zero =>
    cases tells with
    | true => exact .inr (.inr ⟨rfl, rfl⟩)
    | false =>
      rw [vwprintfLoop]
      obtain ⟨c1, e1, t1, _⟩ := h.write (garbage.take (b.maxlength - b.length + 1)) (by rw [List.length_take]; omega)
      obtain ⟨b2, e2, t2, m1, m2, m3⟩ := t1.ensureMax (k := k) (b.length + 2 * (b.maxlength - b.length + 1)) (.inl (by simpa using hl))
      cases text with
      | none =>
        simp only [vswprintf, e1, Option.map_some, Option.bind_eq_bind, Option.bind_some, e2, vwprintfLoop]
        exact .inr (.inl ⟨_, rfl, t2, m2, fun t ht => by cases ht⟩)
      | some t =>
        by_cases hfit : t.length < b.maxlength - b.length + 1
        · obtain ⟨c, e, _, g⟩ := h.writeNul (k := k) t (by omega)
          simp only [vswprintf, if_pos hfit, e, Option.map_some, Option.bind_eq_bind, Option.bind_some]
          exact .inl ⟨_, t, rfl, rfl, g⟩
        · simp only [vswprintf, if_neg hfit, e1, Option.map_some, Option.bind_eq_bind, Option.bind_some, Bool.false_eq_true, if_false, e2, vwprintfLoop]
          exact .inr (.inl ⟨_, rfl, t2, m2, fun t' ht => by cases ht; exact ⟨by trivial, by omega⟩⟩)
  | succ rounds ih =>
    rw [vwprintfLoop]
    obtain ⟨c1, e1, t1, _⟩ := h.write (garbage.take (b.maxlength - b.length + 1)) (by rw [List.length_take]; omega)
    obtain ⟨b2, e2, t2, m1, m2, m3⟩ := t1.ensureMax (k := k) (b.length + 2 * (b.maxlength - b.length + 1)) (.inl (by simpa using hl))
    have hl2 := t2.len
    cases text with
    | none =>
      simp only [vswprintf, e1, Option.map_some, Option.bind_eq_bind, Option.bind_some, e2]
      rcases ih b2 t2 m2 hl2 with ⟨b', t, _, g2, _⟩ | ⟨b', g1, g2, g3, g4⟩ | ⟨g1, g2⟩
      · cases g2
      · exact .inr (.inl ⟨b', g1, g2, g3, fun t ht => by cases ht⟩)
      · subst g1
        -- one more round
        obtain ⟨c3, e3, t3, _⟩ := t2.write (garbage.take (b2.maxlength - b2.length + 1)) (by rw [List.length_take]; omega)
        obtain ⟨b4, e4, t4, _, m4, _⟩ := t3.ensureMax (k := k) (b2.length + 2 * (b2.maxlength - b2.length + 1)) (.inl (by simpa using m2))
        refine .inr (.inl ⟨b4, ?_, t4, m4, fun t ht => by cases ht⟩)
        rw [vwprintfLoop]
        simp only [vswprintf, e3, Option.map_some, Option.bind_eq_bind, Option.bind_some, e4, vwprintfLoop]
    | some t =>
      by_cases hfit : t.length < b.maxlength - b.length + 1
      · obtain ⟨c, e, _, g⟩ := h.writeNul (k := k) t (by omega)
        simp only [vswprintf, if_pos hfit, e, Option.map_some, Option.bind_eq_bind, Option.bind_some]
        exact .inl ⟨_, t, rfl, rfl, g⟩
      · cases tells with
        | false =>
          simp only [vswprintf, if_neg hfit, e1, Option.map_some, Option.bind_eq_bind, Option.bind_some, Bool.false_eq_true, if_false, e2]
          rcases ih b2 t2 m2 hl2 with ⟨b', t', g1, g2, g3⟩ | ⟨b', g1, g2, g3, g4⟩ | ⟨_, g2⟩
          · exact .inl ⟨b', t', g1, g2, g3⟩
          · refine .inr (.inl ⟨b', g1, g2, g3, fun t' ht => ⟨trivial, ?_⟩⟩)
            have := (g4 t' ht).2
            have hmul : 2 ^ (rounds + 1) * (b.maxlength - b.length + 2) ≤ 2 ^ rounds * (b2.maxlength - b2.length + 2) := by
              rw [Nat.pow_succ, Nat.mul_assoc]
              exact Nat.mul_le_mul_left _ (by omega)
            omega
          · cases g2
        | true =>
          obtain ⟨b3, e3, t3, n1, n2, n3⟩ := t1.ensureMax (k := k) (b.length + t.length) (.inl (by simpa using hl))
          have hl3 := t3.len
          simp only [vswprintf, if_neg hfit, e1, Option.map_some, Option.bind_eq_bind, Option.bind_some, if_true, e3]
          obtain ⟨c, e, _, g⟩ := t3.writeNul (k := k) t (by omega)
          rw [vwprintfLoop]
          simp only [vswprintf, if_pos (show t.length < b3.maxlength - b3.length + 1 by omega), e, Option.map_some, Option.bind_eq_bind, Option.bind_some]
          exact .inl ⟨_, t, rfl, rfl, g⟩

/-- **C92 (formatting wide characters), partial.** `wb_vwprintf` appends the formatted text and returns its length, or fails and leaves the text in the buffer unchanged. It does
not fail if `vswprintf` tells the length that is needed, nor if the text has less than 1048575 characters. Missing: longer texts on systems that do not tell. -/
theorem C92_vwprintf_partial [DecidableEq α] {k : Kind α} {b : Buffer α} {l : List α} (h : Holds k b l) (tells : Bool) (text : Option (List α)) (garbage : List α) :
    ∃ b' r, wbVwprintf k tells b text garbage = some (b', r) ∧
      ((∃ t, text = some t ∧ r = some t.length ∧ Holds k b' (l ++ t)) ∨ (r = none ∧ Holds k b' l)) ∧
      ∀ t, text = some t → (tells = true ∨ t.length < 1048575) → r = some t.length := by
  have h1 := h.len
  have h2 := h.room
  unfold wbVwprintf
  rcases vwprintf_loop (k := k) tells text garbage 19 b l h.text (by omega) with ⟨b', t, e1, e2, e3⟩ | ⟨b', e1, e2, e3, e4⟩ | ⟨e1, _⟩
  · simp only [e1, Option.bind_eq_bind, Option.bind_some, e3.assertNul]
    exact ⟨_, _, rfl, .inl ⟨t, e2, rfl, e3⟩, fun t' ht _ => by rw [e2] at ht; cases ht; rfl⟩
  · obtain ⟨c, g1, g2⟩ := e2.poke (k := k) e3
    simp only [e1, Option.bind_eq_bind, Option.bind_some, g1, g2.assertNul]
    refine ⟨_, _, rfl, .inr ⟨rfl, g2⟩, fun t ht hc => ?_⟩
    obtain ⟨f1, f2⟩ := e4 t ht
    rcases hc with hc | hc
    · rw [f1] at hc; cases hc
    · omega
  · omega

/-! ## Joining -/

theorem copyString_spec (w s : List α) (junk : List (Option α)) (h : s.length ≤ junk.length) :
    copyString (w.map some ++ junk) w.length s = some ((w ++ s).map some ++ junk.drop s.length, (w ++ s).length) := by
  induction s generalizing w junk with
  | nil => simp [copyString]
  | cons c s ih =>
    cases junk with
    | nil => simp at h
    | cons x junk =>
      rw [copyString, poke, if_pos (by simp), List.set_append_right _ _ (by simp)]
      simp only [Option.bind_eq_bind, Option.bind_some, List.length_map, Nat.sub_self, List.set_cons_zero]
      have := ih (w ++ [c]) junk (by simpa using h)
      simp only [List.length_append, List.length_cons, List.length_nil, Nat.zero_add, List.map_append, List.map_cons, List.map_nil, List.append_assoc, List.cons_append, List.nil_append] at this
      rw [this]
      simp

/-- What the joined string is: the elements, with the padding between neighbours. -/
def joined (padding : List α) : List (List α) → List α
  | [] => []
  | [e] => e
  | e :: f :: es => e ++ padding ++ joined padding (f :: es)

theorem joinLoop_spec (padding w : List α) (es : List (List α)) (junk : List (Option α)) (h : (joined padding es).length ≤ junk.length) :
    joinLoop padding (w.map some ++ junk) w.length es = some ((w ++ joined padding es).map some ++ junk.drop (joined padding es).length, (w ++ joined padding es).length) := by
  induction es generalizing w junk with
  | nil => simp [joinLoop, joined]
  | cons e es ih =>
    rw [joinLoop]
    cases es with
    | nil =>
      rw [copyString_spec _ _ _ (by simpa [joined] using h)]
      simp [joinLoop, joined]
    | cons f es =>
      rw [joined, List.length_append, List.length_append] at h
      rw [copyString_spec _ _ _ (by omega)]
      simp only [Option.bind_eq_bind, Option.bind_some, ne_eq, reduceCtorEq, not_false_eq_true, if_true]
      rw [copyString_spec _ _ _ (by rw [List.length_drop]; omega)]
      simp only [Option.bind_some]
      rw [ih _ _ (by simp only [List.length_drop]; omega)]
      simp [joined, List.append_assoc, Nat.add_assoc]

theorem joined_length (padding : List α) (es : List (List α)) (n : Nat) :
    (if es.length > 0 then es.foldl (fun n e => n + e.length) n + padding.length * (es.length - 1) else es.foldl (fun n e => n + e.length) n) = n + (joined padding es).length := by
  induction es generalizing n with
  | nil => simp [joined]
  | cons e es ih =>
    cases es with
    | nil => simp [joined]
    | cons f es =>
      have := ih (n + e.length)
      simp only [List.length_cons, Nat.zero_lt_succ, gt_iff_lt, if_true, Nat.add_sub_cancel, List.foldl_cons] at this ⊢
      rw [joined, List.length_append, List.length_append, Nat.mul_succ]
      omega

/-- **C92 (joining).** `joinwcsarray` fills its block, which is not larger than needed, with the elements, with the padding between them, and a terminator. -/
theorem C92_join [DecidableEq α] (k : Kind α) (array : List (List α)) (padding : List α) :
    joinwcsarray k array padding = some ((padding.intercalate array).map some ++ [some k.nul]) := by
  have hj : ∀ es : List (List α), padding.intercalate es = joined padding es := by
    intro es
    induction es with
    | nil => rfl
    | cons e es ih =>
      cases es with
      | nil => simp [joined, List.intercalate]
      | cons f es =>
        rw [joined, ← ih]
        simp [List.intercalate, List.intersperse]
  have hl := joined_length padding array 0
  unfold joinwcsarray
  simp only [hl, Nat.zero_add]
  have := joinLoop_spec padding [] array (List.replicate ((joined padding array).length + 1) none) (by simp)
  simp only [List.map_nil, List.nil_append, List.length_nil] at this
  simp only [this, Option.bind_eq_bind, Option.bind_some]
  rw [poke, if_pos (by simp), hj, List.set_append_right _ _ (by simp)]
  simp

end Yash.Buf
