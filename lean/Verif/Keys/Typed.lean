import Verif.Keys.Props
/-!
# C81: what each key and each character does
-/
set_option autoImplicit false

namespace Yash.Keys

open Spec
open Yash.Input (Byte Decoder mbrtowc)
open Yash.Input.Spec (OneChar Text)

variable {T S Cmd : Type} {E : Terminal T S Cmd} {code : List Byte → Option (List Char)} {bound : S → List Char → Option Cmd}

theorem run_append (a b : List Ev) : ∀ r : Reader T S, run E r (a ++ b) = (run E r a).bind fun r => run E r b := by
  induction a with
  | nil => intro r; rfl
  | cons ev a ih =>
    intro r
    rw [List.cons_append, run, run]
    split
    · cases readNext E r ev with
      | none => rfl
      | some r1 => exact ih r1
    · rename_i h
      cases b with
      | nil => rfl
      | cons x b => rw [Option.bind_some, run, if_neg h]

/-! ## The second buffer -/

theorem keymap_bound (h : Maps E code bound) {s : S} {key : List Char} {cmd : Cmd} {c : Char} (hb : BoundTo bound s key cmd c) (first : List Byte) (t : T)
    (inc amb : Bool) : processKeymap E ⟨first, t, key, inc, amb, s⟩ = some ⟨first, t, [], inc, amb, E.invoke cmd c s⟩ := by
  obtain ⟨b1, b2, b3⟩ := hb
  cases key with
  | nil => cases b2
  | cons x xs =>
    obtain ⟨tg, hg, hf⟩ := h.found s (x :: xs)
    have hp : tg.prefixMatch = false := by
      cases hp : tg.prefixMatch with
      | false => rfl
      | true =>
        obtain ⟨k, hk, hs⟩ := hf.more.1 hp
        rw [b3 k hk] at hs
        cases hs
    have he : tg.exact = some cmd ∧ tg.matchlength = (x :: xs).length := by
      cases he : tg.exact with
      | none =>
        have := hf.nothing he (x :: xs) (List.prefix_refl _)
        rw [b1] at this
        cases this
      | some v =>
        obtain ⟨l1, l2, l3⟩ := hf.longest v he
        have hm : tg.matchlength = (x :: xs).length := by
          refine Nat.le_antisymm l1 (Nat.le_of_not_lt fun hlt => ?_)
          have := l3 ((x :: xs).drop tg.matchlength) (by simp [List.drop_eq_nil_iff]; simpa using hlt) (List.prefix_refl _)
          rw [List.take_append_drop, b1] at this
          cases this
        rw [hm, List.take_length, b1] at l2
        exact ⟨by rw [Option.some.inj l2], hm⟩
    have hlast : (x :: xs)[(x :: xs).length - 1]? = some c := by rw [← List.getLast?_eq_getElem?]; exact b2
    simp only [processKeymap, List.length_cons]
    rw [keymapLoop]
    simp only [hg, he.1, he.2, hp]
    rw [if_neg (by simp), hlast]
    simp only [List.drop_length]
    split
    · rfl
    · rw [keymapLoop]; rfl

theorem keymap_char (h : Maps E code bound) {s : S} {c : Char} (hb : ∀ x, bound s (c :: x) = none) (first : List Byte) (t : T) (inc amb : Bool) :
    processKeymap E ⟨first, t, [c], inc, amb, s⟩ = some ⟨first, t, [], inc, amb, E.invoke (E.default s) c s⟩ := by
  obtain ⟨tg, hg, hf⟩ := h.found s [c]
  have hp : tg.prefixMatch = false := by
    cases hp : tg.prefixMatch with
    | false => rfl
    | true =>
      obtain ⟨k, hk, hs⟩ := hf.more.1 hp
      rw [List.singleton_append, hb] at hs
      cases hs
  have he : tg.exact = none := by
    cases he : tg.exact with
    | none => rfl
    | some v =>
      obtain ⟨l1, l2, -⟩ := hf.longest v he
      rcases Nat.lt_or_ge 0 tg.matchlength with h0 | h0
      · rw [List.take_of_length_le (by simpa using Nat.succ_le_of_lt h0), hb] at l2
        cases l2
      · obtain h0 : tg.matchlength = 0 := by omega
        rw [h0, List.take_zero, h.noEmptyKey] at l2
        cases l2
  simp only [processKeymap, List.length_cons, List.length_nil]
  rw [keymapLoop]
  simp only [hg, he, hp]
  simp only [List.length_cons, List.length_nil, Nat.zero_add, Nat.lt_irrefl, gt_iff_lt, if_false]
  split
  · rfl
  · rfl

theorem keymap_unbound (h : Maps E code bound) {s : S} {c : Char} (hb : Unbound E bound s c) (first : List Byte) (t : T) (inc amb : Bool) :
    processKeymap E ⟨first, t, keyOf c, inc, amb, s⟩ = some ⟨first, t, [], inc, amb, E.invoke (E.default s) c s⟩ := by
  unfold Unbound at hb
  unfold keyOf
  split at hb
  · rename_i hc
    subst hc
    exact keymap_bound h ⟨hb.1, rfl, hb.2⟩ first t inc amb
  · rename_i hc
    rw [if_neg hc]
    exact keymap_char h hb first t inc amb

theorem keymap_nothing (first : List Byte) (t : T) (inc amb : Bool) (s : S) : processKeymap E ⟨first, t, [], inc, amb, s⟩ = some ⟨first, t, [], inc, amb, s⟩ := rfl

/-! ## The first buffer -/

theorem code_ordinary (h : Maps E code bound) {b : Byte} (ho : Ordinary E code b) (timeout : Bool) (n : Nat) (second : List Char) :
    codeLoop E timeout (n + 1) [b] second = some (.wide, false, [b], second) := by
  obtain ⟨tg, hg, hf⟩ := h.foundCode [b]
  have hp : tg.prefixMatch = false := by
    cases hp : tg.prefixMatch with
    | false => rfl
    | true =>
      obtain ⟨k, hk, hs⟩ := hf.more.1 hp
      rw [List.singleton_append, ho.2] at hs
      cases hs
  have he : tg.exact = none := by
    cases he : tg.exact with
    | none => rfl
    | some v =>
      obtain ⟨l1, l2, -⟩ := hf.longest v he
      rcases Nat.lt_or_ge 0 tg.matchlength with h0 | h0
      · rw [List.take_of_length_le (by simpa using Nat.succ_le_of_lt h0), ho.2] at l2
        cases l2
      · obtain h0 : tg.matchlength = 0 := by omega
        rw [h0, List.take_zero, h.noEmptyCode] at l2
        cases l2
  rw [codeLoop, if_neg (by simp), lookup, special_none.2 ho.1]
  simp only [hg, he, hp]

theorem received_plain {b : Byte} (hb : E.convmeta = false ∨ b < 0x80) : received E (.typed b) = [b] := by
  rw [received, if_neg]
  rcases hb with hb | hb
  · simp [hb]
  · simp only [ge_iff_le, Bool.and_eq_true, decide_eq_true_eq, not_and, UInt8.not_le]
    exact fun _ => hb

/-- The characters of a text, without the second buffer. -/
theorem wide_more {r : Reader T S} {b : Byte} {t1 : T} (hf : r.first = [b]) (hd : E.decoder.step r.state b = .more t1) :
    processWide E r = processKeymap E ⟨[], t1, r.second, true, r.ambiguous, r.ed⟩ := by
  obtain ⟨first, state, second, inc, amb, ed⟩ := r
  obtain rfl : first = [b] := hf
  simp only at hd
  simp only [processWide, List.length_singleton]
  rw [wideLoop, if_neg (by simp)]
  simp only [mbrtowc, hd]
  rfl

theorem wide_char {r : Reader T S} {b : Byte} {c : Char} {t1 : T} (hf : r.first = [b]) (hd : E.decoder.step r.state b = .char c t1) :
    processWide E r = processKeymap E ⟨[], t1, (append E c r.second r.ed).1, false, r.ambiguous, (append E c r.second r.ed).2⟩ := by
  obtain ⟨first, state, second, inc, amb, ed⟩ := r
  obtain rfl : first = [b] := hf
  simp only at hd
  simp only [processWide, List.length_singleton]
  rw [wideLoop, if_neg (by simp)]
  simp only [mbrtowc, hd]
  by_cases hc : c = '\x00'
  · subst hc
    simp only [if_pos]
    rw [wideLoop, if_pos (by simp)]
    rfl
  · simp only [if_neg hc]
    rw [wideLoop, if_pos (by simp)]
    rfl

/-- The bytes of a character, one after another. -/
theorem char_bytes (h : Maps E code bound) {s : S} (he : E.editing s = true) {c : Char} {s' : S}
    (hfin : ∀ t1 amb, processKeymap E ⟨[], t1, (append E c [] s).1, false, amb, (append E c [] s).2⟩ = some ⟨[], t1, [], false, amb, s'⟩)
    {bs : List Byte} {t t1 : T} (ho : OneChar E.decoder t bs c t1) : (∀ b ∈ bs, E.convmeta = false ∨ b < 0x80) →
    ∀ inc : Bool, ((inc || E.verbatim s) = false → ∀ b ∈ bs, Ordinary E code b) →
    run E ⟨[], t, [], inc, false, s⟩ (bs.map .typed) = some (idle t1 s') := by
  induction ho with
  | last t b c t1 hd =>
    intro hr inc hb
    rw [List.map_cons, run, if_pos he, readNext_eq _ _ (by simp) (by simp) (by simp), received_plain (hr b (by simp))]
    simp only [List.nil_append, List.length_singleton]
    split
    · rw [wide_char rfl hd, hfin]; rfl
    · rename_i hi
      rw [code_ordinary h (hb (by simpa using hi) b (by simp))]
      simp only []
      rw [wide_char rfl hd, hfin]; rfl
  | more t b t2 bs c t1 hd _ ih =>
    intro hr inc hb
    rw [List.map_cons, run, if_pos he, readNext_eq _ _ (by simp) (by simp) (by simp), received_plain (hr b (by simp))]
    simp only [List.nil_append, List.length_singleton]
    have hrest := ih hfin (fun x hx => hr x (by simp [hx])) true (by simp)
    split
    · rw [wide_more rfl hd, keymap_nothing]; exact hrest
    · rename_i hi
      rw [code_ordinary h (hb (by simpa using hi) b (by simp))]
      simp only []
      rw [wide_more rfl hd, keymap_nothing]; exact hrest

theorem append_plain {c : Char} (hc : c ≠ '\x00') {s : S} (hv : E.verbatim s = false) : append E c [] s = (keyOf c, s) := by
  unfold append keyOf
  rw [if_neg (by simp [hv]), if_neg hc]
  split <;> rfl

theorem append_verbatim (c : Char) {s : S} (hv : E.verbatim s = true) :
    append E c [] s = ([], E.invoke (E.default (E.unverbatim s)) c (E.unverbatim s)) := by
  rw [append, if_pos hv]

/-! ## Keys -/

theorem lookup_ordinary {b : Byte} (hb : NotSpecial E b) (rest : List Byte) : lookup E (b :: rest) = Trie.get ltByte E.codes (b :: rest) := by
  rw [lookup, special_none.2 hb]

/-- A key that has been received whole. -/
theorem code_whole (h : Maps E code bound) {k : List Byte} {key : List Char} (hk : code k = some key) (hs : ∀ b ∈ k.head?, NotSpecial E b) :
    ∃ tg, lookup E k = some tg ∧ tg.exact = some key ∧ tg.matchlength = k.length ∧ (tg.prefixMatch = true ↔ ∃ x, x ≠ [] ∧ (code (k ++ x)).isSome) ∧ k ≠ [] := by
  cases k with
  | nil => rw [h.noEmptyCode] at hk; cases hk
  | cons b k =>
    obtain ⟨tg, hg, hf⟩ := h.foundCode (b :: k)
    refine ⟨tg, by rw [lookup_ordinary (hs b rfl), hg], ?_, ?_, hf.more, by simp⟩
    all_goals
      cases he : tg.exact with
      | none =>
        have := hf.nothing he _ (List.prefix_refl _)
        rw [hk] at this
        cases this
      | some v =>
        obtain ⟨l1, l2, l3⟩ := hf.longest v he
        have hm : tg.matchlength = (b :: k).length := by
          refine Nat.le_antisymm l1 (Nat.le_of_not_lt fun hlt => ?_)
          have := l3 ((b :: k).drop tg.matchlength) (by simp [List.drop_eq_nil_iff]; simpa using hlt) (List.prefix_refl _)
          rw [List.take_append_drop, hk] at this
          cases this
        rw [hm, List.take_length, hk] at l2
        first
          | exact hm
          | rw [Option.some.inj l2]

theorem code_done (timeout : Bool) (n : Nat) (second : List Char) : codeLoop E timeout (n + 1) [] second = some (.wide, false, [], second) := rfl

/-- A part of a key has been received: the reader waits. -/
theorem code_part (h : Maps E code bound) {p q : List Byte} {key : List Char} (hk : code (p ++ q) = some key) (hs : ∀ b ∈ (p ++ q).head?, NotSpecial E b)
    (hp : p ≠ []) (hq : q ≠ []) (n : Nat) (second : List Char) : ∃ amb, codeLoop E false (n + 1) p second = some (.keymap, amb, p, second) := by
  cases p with
  | nil => exact absurd rfl hp
  | cons b p =>
    obtain ⟨tg, hg, hf⟩ := h.foundCode (b :: p)
    have hm : tg.prefixMatch = true := hf.more.2 ⟨q, hq, by rw [hk]; rfl⟩
    rw [codeLoop, if_neg (by simp), lookup_ordinary (hs b rfl), hg]
    cases he : tg.exact with
    | none => exact ⟨false, by simp only [he, hm]⟩
    | some v => exact ⟨true, by simp [he, hm]⟩

theorem received_ne (b : Byte) : received E (.typed b) ≠ [] := by rw [received]; split <;> simp

/-- The bytes of a key but the last one. -/
theorem key_part (h : Maps E code bound) {s : S} (he : E.editing s = true) (hv : E.verbatim s = false) (t : T) {key : List Char} :
    ∀ (bs p q : List Byte) (amb : Bool), p ++ bs.flatMap (fun b => received E (.typed b)) ++ q = p ++ bs.flatMap (fun b => received E (.typed b)) ++ q →
    code (p ++ bs.flatMap (fun b => received E (.typed b)) ++ q) = some key → (∀ b ∈ (p ++ bs.flatMap (fun b => received E (.typed b)) ++ q).head?, NotSpecial E b) →
    q ≠ [] → ∃ amb', run E ⟨p, t, [], false, amb, s⟩ (bs.map .typed) = some ⟨p ++ bs.flatMap (fun b => received E (.typed b)), t, [], false, amb', s⟩ := by
  intro bs
  induction bs with
  | nil => intro p q amb _ _ _ _; exact ⟨amb, by simp [run]⟩
  | cons b bs ih =>
    intro p q amb _ hk hs hq
    have hne := received_ne (E := E) b
    rw [List.flatMap_cons, ← List.append_assoc] at hk hs ⊢
    obtain ⟨amb1, h1⟩ := code_part h (p := p ++ received E (.typed b)) (q := bs.flatMap (fun b => received E (.typed b)) ++ q) (by rwa [← List.append_assoc])
      (by rwa [← List.append_assoc]) (by simp [hne]) (by simp [hq]) (p ++ received E (.typed b)).length []
    obtain ⟨amb2, h2⟩ := ih (p ++ received E (.typed b)) q amb1 rfl hk hs hq
    refine ⟨amb2, ?_⟩
    rw [List.map_cons, run, if_pos he, readNext_eq _ _ (by simp) (by simp) (by simp)]
    rw [if_neg (by simp [hv])]
    simp only [isTimeout, h1]
    exact h2

theorem split_last {α : Type} {l : List α} (h : l ≠ []) : ∃ a b, l = a ++ [b] := ⟨l.dropLast, l.getLast h, (List.dropLast_concat_getLast h).symm⟩

/-- The reader when the last byte of a key has come. -/
theorem key_last (h : Maps E code bound) {s : S} (he : E.editing s = true) (hv : E.verbatim s = false) (t : T) {bs k : List Byte} {key : List Char}
    (hk : bs.flatMap (fun b => received E (.typed b)) = k) (hc : code k = some key) (hs : ∀ b ∈ k.head?, NotSpecial E b) :
    run E (idle t s) (bs.map .typed) =
      match codeLoop E false (k.length + 1) k [] with
      | none => none
      | some (.wide, amb, first, second) => processWide E ⟨first, t, second, false, amb, s⟩
      | some (.keymap, amb, first, second) => processKeymap E ⟨first, t, second, false, amb, s⟩ := by
  have hne : bs ≠ [] := by
    rintro rfl
    rw [← hk, List.flatMap_nil, h.noEmptyCode] at hc
    cases hc
  obtain ⟨as, b, rfl⟩ := split_last hne
  rw [List.flatMap_append, List.flatMap_cons, List.flatMap_nil, List.append_nil] at hk
  subst hk
  obtain ⟨amb, h1⟩ := key_part h he hv t as [] (received E (.typed b)) false rfl (by simpa using hc) (by simpa using hs) (received_ne b)
  rw [List.map_append, run_append, idle, h1, Option.bind_some, List.map_cons, List.map_nil, run, if_pos he, readNext_eq _ _ (by simp) (by simp) (by simp)]
  rw [if_neg (by simp [hv])]
  simp only [isTimeout, List.nil_append]
  split <;> simp_all [run]

theorem received_fun : (fun b => received E (.typed b)) = fun b => if E.convmeta && b ≥ 0x80 then [0x1B, b &&& 0x7F] else [b] := rfl

/-- What is typed is executed: every key and every character that is typed leads to one command, in the order in which they are typed, whatever
the state of the editor, and nothing is waiting afterwards. -/
theorem typed_is_executed (h : Maps E code bound) {t t' : T} {s s' : S} {evs : List Ev} (ht : Typed E code bound t s evs t' s') :
    run E (idle t s) evs = some (idle t' s') := by
  induction ht with
  | nil t s => rfl
  | char t s bs c t1 evs t' s' he hv ho hc hb hu _ ih =>
    rw [run_append, idle, char_bytes h he (s' := E.invoke (E.default s) c s) (by
      intro t1 amb
      rw [append_plain hc hv]
      exact keymap_unbound h hu _ _ _ _) ho (fun b hx => (hb b hx).2) false (fun _ b hx => (hb b hx).1)]
    exact ih
  | boundChar t s bs c t1 cmd evs t' s' he hv ho hc hb hu _ ih =>
    rw [run_append, idle, char_bytes h he (s' := E.invoke cmd c s) (by
      intro t1 amb
      rw [append_plain hc hv]
      exact keymap_bound h hu _ _ _ _) ho (fun b hx => (hb b hx).2) false (fun _ b hx => (hb b hx).1)]
    exact ih
  | key t s bs k key cmd c evs t' s' he hv hk hc hs hx hb _ ih =>
    rw [← received_fun] at hk
    rw [run_append, key_last h he hv t hk hc hs]
    obtain ⟨tg, g1, g2, g3, g4, g5⟩ := code_whole h hc hs
    have hp : tg.prefixMatch = false := by
      cases hp : tg.prefixMatch with
      | false => rfl
      | true =>
        obtain ⟨x, hx1, hx2⟩ := g4.1 hp
        rw [hx x hx1] at hx2
        cases hx2
    obtain ⟨m, hm⟩ : ∃ m, k.length = m + 1 := ⟨k.length - 1, by have := List.length_pos_iff.2 g5; omega⟩
    rw [codeLoop, if_neg (by simpa using g5), g1]
    simp only [g2, hp, g3, List.drop_length]
    simp only [hm, code_done, List.nil_append]
    rw [show processWide E (⟨[], t, key, false, false, s⟩ : Reader T S) = processKeymap E ⟨[], t, key, false, false, s⟩ from rfl, keymap_bound h hb]
    exact ih
  | late t s bs k key cmd c more evs t' s' he hv hk hc hs hm1 hm2 hb _ ih =>
    rw [← received_fun] at hk
    rw [run_append, key_last h he hv t hk hc hs]
    obtain ⟨tg, g1, g2, g3, g4, g5⟩ := code_whole h hc hs
    have hp : tg.prefixMatch = true := g4.2 ⟨more, hm1, hm2⟩
    obtain ⟨m, hm⟩ : ∃ m, k.length = m + 1 := ⟨k.length - 1, by have := List.length_pos_iff.2 g5; omega⟩
    rw [codeLoop, if_neg (by simpa using g5), g1]
    simp only [g2, hp]
    simp only [keymap_nothing, Option.bind_some, Bool.false_eq_true, if_false]
    rw [run, if_pos he, readNext_eq _ _ (by simp) (by simp) (by simp)]
    rw [if_neg (by simp [hv])]
    simp only [received, List.append_nil, isTimeout]
    rw [codeLoop, if_neg (by simpa using g5), g1]
    simp only [g2, hp, if_true, g3, List.drop_length]
    simp only [hm, code_done, List.nil_append]
    rw [show processWide E (⟨[], t, key, false, false, s⟩ : Reader T S) = processKeymap E ⟨[], t, key, false, false, s⟩ from rfl, keymap_bound h hb]
    exact ih
  | special t s b key cmd c evs t' s' he hv hr hs hb _ ih =>
    have hsp : special E b = some key := by
      cases hsp : special E b with
      | none =>
        have := special_none.1 hsp
        unfold SpecialKey at hs
        rw [List.find?_eq_none.2 (by
          intro e hm
          have := this e hm
          simpa using this)] at hs
        cases hs
      | some k =>
        have := special_some hsp
        unfold SpecialKey at this hs
        rw [this] at hs
        exact hs
    rw [idle, run, if_pos he, readNext_eq _ _ (by simp) (by simp) (by simp), received_plain hr]
    rw [if_neg (by simp [hv])]
    simp only [List.nil_append, List.length_singleton]
    rw [codeLoop, if_neg (by simp), lookup, hsp]
    simp only [List.drop_succ_cons, List.drop_zero, code_done, List.nil_append]
    rw [show processWide E (⟨[], t, key, false, false, s⟩ : Reader T S) = processKeymap E ⟨[], t, key, false, false, s⟩ from rfl, keymap_bound h hb]
    exact ih
  | verbatim t s bs c t1 evs t' s' he hv ho hb _ ih =>
    rw [run_append, idle, char_bytes h he (s' := E.invoke (E.default (E.unverbatim s)) c (E.unverbatim s)) (by
      intro t1 amb
      rw [append_verbatim c hv]
      rfl) ho hb false (by simp [hv])]
    exact ih

end Yash.Keys
