import Verif.Printf.Escape
/-!
# Formats

`parseFormat` finds the pieces that the specification says.
-/
set_option autoImplicit false

namespace Yash.Printf

open Spec

theorem takeWhile_eq (p : Char → Bool) (a b : List Char) (ha : ∀ c ∈ a, p c = true)
    (hb : ∀ c ∈ b.head?, p c = false) : (a ++ b).takeWhile p = a ∧ (a ++ b).dropWhile p = b := by
  induction a with
  | nil =>
    cases b with
    | nil => simp
    | cons c b =>
      have := hb c (by simp)
      simp [this]
  | cons x a ih =>
    have hx := ha x (by simp)
    obtain ⟨h1, h2⟩ := ih (fun c hc => ha c (by simp [hc]))
    simp [hx, h1, h2]

theorem takeWhile_all (p : Char → Bool) (s : List Char) : ∀ c ∈ s.takeWhile p, p c = true := by
  induction s with
  | nil => simp
  | cons x s ih =>
    intro c hc
    rw [List.takeWhile_cons] at hc
    split at hc
    · rcases List.mem_cons.mp hc with h | h
      · rw [h]; assumption
      · exact ih c h
    · cases hc

theorem dropWhile_head (p : Char → Bool) (s : List Char) :
    ∀ c ∈ (s.dropWhile p).head?, p c = false := by
  induction s with
  | nil => simp
  | cons x s ih =>
    intro c hc
    rw [List.dropWhile_cons] at hc
    split at hc
    · exact ih c hc
    · simp at hc
      subst hc
      exact Bool.eq_false_iff.mpr ‹¬ p x = true›

theorem isFlag_iff (c : Char) : isFlag c = true ↔ c ∈ ['#', '0', '-', '+', ' '] := by
  simp [isFlag, or_assoc]

theorem isDigit_iff (c : Char) : isDigit c = true ↔ c ∈ digits := by
  constructor
  · intro h
    simp only [isDigit, Bool.and_eq_true, decide_eq_true_eq] at h
    obtain ⟨h1, h2⟩ := h
    rw [char_le_iff] at h1 h2
    have e0 : ('0' : Char).toNat = 48 := rfl
    have e9 : ('9' : Char).toNat = 57 := rfl
    rw [e0] at h1
    rw [e9] at h2
    have hc : c = Char.ofNat c.toNat := (Char.ofNat_toNat c).symm
    have : c.toNat = 48 ∨ c.toNat = 49 ∨ c.toNat = 50 ∨ c.toNat = 51 ∨ c.toNat = 52 ∨
        c.toNat = 53 ∨ c.toNat = 54 ∨ c.toNat = 55 ∨ c.toNat = 56 ∨ c.toNat = 57 := by omega
    rcases this with h | h | h | h | h | h | h | h | h | h <;> rw [h] at hc <;> rw [hc] <;> decide
  · intro h
    simp only [digits, octalDigits, List.cons_append, List.nil_append, List.mem_cons,
      List.not_mem_nil, or_false] at h
    rcases h with h | h | h | h | h | h | h | h | h | h <;> subst h <;> decide

/-- What may stand between the percent sign and the letter. -/
structure WF (f w p : List Char) : Prop where
  flags : ∀ c ∈ f, c ∈ ['#', '0', '-', '+', ' ']
  width : ∀ c ∈ w, c ∈ digits
  first : w.head? ≠ some '0'
  prec : p = [] ∨ ∃ ds, p = '.' :: ds ∧ ∀ c ∈ ds, c ∈ digits

theorem decimal_eq (s : List Char) : strtoul s = decimalValue s := by
  unfold strtoul decimalValue
  congr 1
  funext n c
  have : ('0' : Char).toNat = 48 := rfl
  rw [this, Nat.mul_comm]

theorem not_flag_of_digit (c : Char) (h : c ∈ digits) (h0 : c ≠ '0') : isFlag c = false := by
  cases hf : isFlag c with
  | false => rfl
  | true =>
    have := (isFlag_iff c).mp hf
    simp only [List.mem_cons, List.not_mem_nil, or_false] at this
    rcases this with rfl | rfl | rfl | rfl | rfl <;> first | exact absurd rfl h0 | exact absurd h (by decide)

/-- The parts of a specification followed by anything that is neither a digit nor, unless there is a
precision, a period. -/
theorem parts_eq {f w p : List Char} (h : WF f w p) (t : List Char)
    (ht : ∀ c ∈ t.head?, isDigit c = false) (htf : w = [] → p = [] → ∀ c ∈ t.head?, isFlag c = false)
    (htp : ∀ c ∈ t.head?, c ≠ '.') :
    (f ++ w ++ p ++ t).takeWhile isFlag = f ∧ (f ++ w ++ p ++ t).dropWhile isFlag = w ++ p ++ t ∧
      (w ++ p ++ t).takeWhile isDigit = w ∧ (w ++ p ++ t).dropWhile isDigit = p ++ t ∧
      precision (p ++ t) = (p, t) := by
  have hpd : ∀ c ∈ (p ++ t).head?, isDigit c = false := by
    rcases h.prec with rfl | ⟨ds, rfl, _⟩
    · exact ht
    · intro c hc
      simp at hc
      subst hc
      decide
  have hwf : ∀ c ∈ (w ++ (p ++ t)).head?, isFlag c = false := by
    cases hw : w with
    | nil =>
      cases hp : p with
      | nil => exact htf hw hp
      | cons x p' =>
        rcases h.prec with h' | ⟨ds, h', _⟩
        · rw [hp] at h'; cases h'
        · intro c hc
          rw [hp] at h'
          cases h'
          simp at hc
          subst hc
          decide
    | cons x w' =>
      intro c hc
      simp at hc
      subst hc
      refine not_flag_of_digit x (h.width x (by simp [hw])) ?_
      intro h0
      exact h.first (by simp [hw, h0])
  have e1 := takeWhile_eq isFlag f (w ++ (p ++ t)) (fun c hc => (isFlag_iff c).mpr (h.flags c hc)) hwf
  have e2 := takeWhile_eq isDigit w (p ++ t) (fun c hc => (isDigit_iff c).mpr (h.width c hc)) hpd
  refine ⟨by simpa using e1.1, by simpa using e1.2, by simpa using e2.1, by simpa using e2.2, ?_⟩
  rcases h.prec with rfl | ⟨ds, rfl, hds⟩
  · cases t with
    | nil => rfl
    | cons c t =>
      have := htp c (by simp)
      unfold precision
      split
      · rename_i heq
        simp at heq
        exact absurd heq.1 this
      · rfl
  · have e3 := takeWhile_eq isDigit ds t (fun c hc => (isDigit_iff c).mpr (hds c hc)) ht
    simp [precision, e3.1, e3.2]

/-- The maximum length that a precision means. -/
def maxOf : List Char → Option Nat
  | [] => none
  | _ :: ds => some (strtoul ds)

theorem percentB_eq {f w p : List Char} (h : WF f w p) :
    parsePercentB (f ++ w ++ p) = some (.echo (f.any (· = '-')) (strtoul w) (maxOf p)) := by
  obtain ⟨e1, e2, e3, e4, _⟩ := parts_eq h [] (by simp) (by simp) (by simp)
  simp only [List.append_nil] at e1 e2 e3 e4
  simp only [parsePercentB, e1, e2, e3, e4]
  rcases h.prec with rfl | ⟨ds, rfl, hds⟩
  · rfl
  · have e5 := takeWhile_eq isDigit ds [] (fun c hc => (isDigit_iff c).mpr (hds c hc)) (by simp)
    simp only [List.append_nil] at e5
    simp [e5.1, e5.2, maxOf]

/-- The item for a conversion specification. -/
def itemOf (f w p : List Char) (l : Char) : Item :=
  if l ∈ ['d', 'i'] then .int (cspec f w p 'j' l)
  else if l ∈ ['u', 'o', 'x', 'X'] then .uint (cspec f w p 'j' l)
  else if l ∈ ['f', 'F', 'e', 'E', 'g', 'G'] then .float (cspec f w p 'L' l)
  else if l = 'c' then .chr (cspec f w p 'l' l)
  else if l = 's' then .str (cspec f w p 'l' l)
  else .echo (f.any (· = '-')) (strtoul w) (maxOf p)

theorem any_eq (f : List Char) (c : Char) : f.any (· = c) = decide (c ∈ f) := by
  induction f with
  | nil => rfl
  | cons x f ih =>
    simp only [List.any_cons, ih, List.mem_cons, Bool.decide_or]
    congr 1
    simp [eq_comm]

theorem convert_iff {f w p : List Char} (h : WF f w p) (l : Char) (item : Item) :
    convert (f.any (· = '#')) (f.any (· = '0')) (f ++ w ++ p) l = some item ↔
      (Allowed f l ∧ item = itemOf f w p l) ∨ (l = '%' ∧ f ++ w ++ p = [] ∧ item = .percent) := by
  unfold convert
  rw [any_eq, any_eq]
  by_cases h1 : l = 'd' ∨ l = 'i'
  · rw [if_pos (by simpa using h1)]
    rcases h1 with rfl | rfl <;> by_cases hh : '#' ∈ f <;>
      simp [hh, Allowed, itemOf, cspec, eq_comm]
  · rw [if_neg (by simpa using h1)]
    by_cases h2 : l = 'u'
    · subst h2
      by_cases hh : '#' ∈ f <;> simp [hh, Allowed, itemOf, cspec, eq_comm]
    · rw [if_neg h2]
      by_cases h3 : l = 'o' ∨ l = 'x' ∨ l = 'X'
      · rw [if_pos (by simpa [or_assoc] using h3)]
        rcases h3 with rfl | rfl | rfl <;> simp [Allowed, itemOf, cspec, eq_comm]
      · rw [if_neg (by simpa [or_assoc] using h3)]
        by_cases h4 : l = 'f' ∨ l = 'F' ∨ l = 'e' ∨ l = 'E' ∨ l = 'g' ∨ l = 'G'
        · rw [if_pos (by simpa [or_assoc] using h4)]
          rcases h4 with rfl | rfl | rfl | rfl | rfl | rfl <;> simp [Allowed, itemOf, cspec, eq_comm]
        · rw [if_neg (by simpa [or_assoc] using h4)]
          by_cases h5 : l = 'c'
          · subst h5
            by_cases hh : '#' ∈ f <;> by_cases hz : '0' ∈ f <;>
              simp [hh, hz, Allowed, itemOf, cspec, eq_comm]
          · rw [if_neg h5]
            by_cases h6 : l = 's'
            · subst h6
              by_cases hh : '#' ∈ f <;> by_cases hz : '0' ∈ f <;>
                simp [hh, hz, Allowed, itemOf, cspec, eq_comm]
            · rw [if_neg h6]
              by_cases h7 : l = 'b'
              · subst h7
                rw [if_pos rfl, percentB_eq h]
                by_cases hh : '#' ∈ f <;> by_cases hz : '0' ∈ f <;>
                  simp [hh, hz, Allowed, itemOf, eq_comm]
              · rw [if_neg h7]
                by_cases h8 : l = '%'
                · subst h8
                  by_cases hs : f ++ w ++ p = []
                  · simp [hs, Allowed, eq_comm]
                  · simp only [hs, if_true, ne_eq, not_false_eq_true, false_and, and_false, or_false]
                    simp [Allowed]
                · rw [if_neg h8]
                  simp only [not_or] at h1 h3 h4
                  constructor
                  · intro h; cases h
                  · rintro (⟨ha, _⟩ | ⟨ha, _⟩)
                    · simp [Allowed, h1, h2, h3, h4, h5, h6, h7] at ha
                    · exact absurd ha h8

theorem letter_facts (f : List Char) (l : Char) (h : Allowed f l ∨ l = '%') :
    isDigit l = false ∧ isFlag l = false ∧ l ≠ '.' := by
  have : l ∈ ['o', 'x', 'X', 'f', 'F', 'e', 'E', 'g', 'G', 'd', 'i', 'u', 'c', 's', 'b', '%'] := by
    rcases h with (h | h | h) | h
    · revert h; simp only [List.mem_cons, List.not_mem_nil, or_false]; intro h
      rcases h with h | h | h | h | h | h | h | h | h <;> simp [h]
    · have := h.1; revert this; simp only [List.mem_cons, List.not_mem_nil, or_false]; intro h
      rcases h with h | h | h <;> simp [h]
    · have := h.1; revert this; simp only [List.mem_cons, List.not_mem_nil, or_false]; intro h
      rcases h with h | h | h <;> simp [h]
    · simp [h]
  simp only [List.mem_cons, List.not_mem_nil, or_false] at this
  rcases this with h | h | h | h | h | h | h | h | h | h | h | h | h | h | h | h <;> subst h <;> decide

/-- The conversion specifications that are found. -/
theorem parsePercent_sound (s : List Char) (item : Item) (r : List Char)
    (h : parsePercent s = some (item, r)) :
    (s = '%' :: r ∧ item = .percent) ∨
      ∃ f w p l, s = f ++ w ++ p ++ l :: r ∧ WF f w p ∧ Allowed f l ∧ item = itemOf f w p l := by
  simp only [parsePercent] at h
  split at h
  · cases h
  · rename_i c rest hp
    split at h
    · rename_i it hc
      cases h
      have wf : WF (s.takeWhile isFlag) ((s.dropWhile isFlag).takeWhile isDigit)
          (precision ((s.dropWhile isFlag).dropWhile isDigit)).1 := by
        refine ⟨fun x hx => (isFlag_iff x).mp (takeWhile_all _ _ x hx),
          fun x hx => (isDigit_iff x).mp (takeWhile_all _ _ x hx), ?_, ?_⟩
        · intro h0
          have hd : (s.dropWhile isFlag).head? = some '0' := by
            cases hs : s.dropWhile isFlag with
            | nil => rw [hs] at h0; simp at h0
            | cons x t =>
              rw [hs, List.takeWhile_cons] at h0
              split at h0
              · simpa using h0
              · simp at h0
          exact absurd (dropWhile_head isFlag s '0' hd) (by decide)
        · unfold precision
          split
          · exact .inr ⟨_, rfl, fun x hx => (isDigit_iff x).mp (takeWhile_all _ _ x hx)⟩
          · exact .inl rfl
      have hs : s = s.takeWhile isFlag ++ (s.dropWhile isFlag).takeWhile isDigit ++
          (precision ((s.dropWhile isFlag).dropWhile isDigit)).1 ++ c :: r := by
        rw [← hp]
        have e3 : ∀ t, (precision t).1 ++ (precision t).2 = t := by
          intro t
          unfold precision
          split
          · simp [List.takeWhile_append_dropWhile]
          · rfl
        rw [List.append_assoc, List.append_assoc, e3, List.takeWhile_append_dropWhile,
          List.takeWhile_append_dropWhile]
      rcases (convert_iff wf c item).mp hc with ⟨ha, hi⟩ | ⟨rfl, he, hi⟩
      · exact .inr ⟨_, _, _, c, hs, wf, ha, hi⟩
      · left
        rw [he] at hs
        exact ⟨by simpa using hs, hi⟩
    · cases h

theorem parsePercent_conv {f w p : List Char} (h : WF f w p) {l : Char} (ha : Allowed f l)
    (r : List Char) : parsePercent (f ++ w ++ p ++ l :: r) = some (itemOf f w p l, r) := by
  obtain ⟨d1, d2, d3⟩ := letter_facts f l (.inl ha)
  obtain ⟨e1, e2, e3, e4, e5⟩ := parts_eq h (l :: r) (by simpa using d1)
    (fun _ _ => by simpa using d2)
    (by simpa using d3)
  simp only [parsePercent, e1, e2, e3, e4, e5, (convert_iff h l _).mpr (.inl ⟨ha, rfl⟩)]

theorem parsePercent_percent (r : List Char) : parsePercent ('%' :: r) = some (.percent, r) := by
  have h : WF [] [] [] := ⟨by simp, by simp, by simp, .inl rfl⟩
  obtain ⟨e1, e2, e3, e4, e5⟩ := parts_eq h ('%' :: r) (by simp; decide) (by simp; decide) (by simp)
  simp only [List.nil_append] at e1 e2 e3 e4 e5
  simp only [parsePercent, e1, e2, e3, e4, e5]
  have := (convert_iff h '%' .percent).mpr (.inr ⟨rfl, rfl, rfl⟩)
  simp only [List.append_nil] at this ⊢
  rw [this]

/-! ## Whole formats -/

/-- The item that does what a piece does. -/
def toItem : Piece → Item
  | .text b => .raw b
  | .conv f w p l => itemOf f w p l

theorem pass_raw {F : Type} (lib : Lib F) (b : List Byte) (items : List Item)
    (args : List (List Char)) :
    pass lib (.raw b :: items) args =
      (pass lib items args).map fun p => ⟨b ++ p.out, p.rest, p.ended, p.valid⟩ := by
  simp only [pass, printItem, Bool.false_eq_true, if_false, Bool.true_and]
  cases pass lib items args <;> rfl

theorem pass_percent {F : Type} (lib : Lib F) (items : List Item) (args : List (List Char)) :
    pass lib (.percent :: items) args = pass lib (.raw [37] :: items) args := by
  simp [pass, printItem]

theorem pass_congr {F : Type} (lib : Lib F) (item : Item) (i j : List Item)
    (h : ∀ args, pass lib i args = pass lib j args) (args : List (List Char)) :
    pass lib (item :: i) args = pass lib (item :: j) args := by
  simp only [pass, h]

theorem pass_makeString {F : Type} (lib : Lib F) (buf : List Byte) (items : List Item)
    (args : List (List Char)) :
    pass lib (makeString buf items) args = pass lib (.raw buf :: items) args := by
  unfold makeString
  split
  · rfl
  · have : buf = [] := List.eq_nil_of_length_eq_zero (by omega)
    subst this
    rw [pass_raw]
    cases pass lib items args <;> simp

theorem pass_raw_raw {F : Type} (lib : Lib F) (a b : List Byte) (items : List Item)
    (args : List (List Char)) :
    pass lib (.raw (a ++ b) :: items) args = pass lib (.raw a :: .raw b :: items) args := by
  simp only [pass_raw]
  cases pass lib items args <;> simp

theorem formatEscape_table (l : Char) (k : Byte) : formatEscape l = some k ↔ (l, k) ∈ formatTable := by
  constructor
  · intro h
    unfold formatEscape at h
    split at h <;> first | (cases h; decide) | cases h
  · intro h
    simp only [formatTable, List.mem_cons, List.not_mem_nil, or_false, Prod.mk.injEq] at h
    rcases h with h | h | h | h | h | h | h | h | h | h <;> obtain ⟨rfl, rfl⟩ := h <;> rfl

theorem noFormatEscape (d : Char)
    (h : d ∉ ['a', 'b', 'f', 'n', 'r', 't', 'v', '\\', '"', '\'']) : formatEscape d = none := by
  cases he : formatEscape d with
  | none => rfl
  | some k =>
    have := (formatEscape_table d k).mp he
    simp only [formatTable, List.mem_cons, List.not_mem_nil, or_false, Prod.mk.injEq] at this
    simp only [List.mem_cons, List.not_mem_nil, or_false, not_or] at h
    exfalso
    rcases this with t | t | t | t | t | t | t | t | t | t <;> simp [t.1] at h

theorem format_plain (enc : Char → Option (List Byte)) (buf : List Byte) (c : Char) (s : List Char)
    (h1 : c ≠ '%') (h2 : c ≠ '\\') : parseFormat enc buf (c :: s) =
      (enc c).bind fun b => parseFormat enc (buf ++ b) s := by
  rw [parseFormat.eq_def]
  simp [h1, h2]

theorem format_percent (enc : Char → Option (List Byte)) (buf : List Byte) (s : List Char) :
    parseFormat enc buf ('%' :: s) =
      match parsePercent s with
      | none => none
      | some (item, rest) =>
        (parseFormat enc [] rest).map fun l => makeString buf (item :: l) := by
  rw [parseFormat.eq_def]
  simp only [if_true]
  split <;> rename_i h <;> rw [h]

theorem format_last (enc : Char → Option (List Byte)) (buf : List Byte) :
    parseFormat enc buf ['\\'] = (enc '\\').bind fun b => parseFormat enc (buf ++ b) [] := by
  rw [parseFormat.eq_def]
  simp

theorem format_escape (enc : Char → Option (List Byte)) (buf : List Byte) (d : Char)
    (s' : List Char) : parseFormat enc buf ('\\' :: d :: s') =
      match formatEscape d with
      | some b => parseFormat enc (buf ++ [b]) s'
      | none =>
        if '0' ≤ d ∧ d ≤ '7' then
          parseFormat enc (buf ++ [toChar (octal 3 0 (d :: s')).1]) (octal 3 0 (d :: s')).2
        else (enc '\\').bind fun b => parseFormat enc (buf ++ b) (d :: s') := by
  rw [parseFormat.eq_def]
  simp
  cases formatEscape d <;> rfl

/-- The pieces of a format that is accepted. -/
theorem parseFormat_sound {F : Type} (lib : Lib F) (s : List Char) (buf : List Byte)
    (items : List Item) (h : parseFormat lib.enc buf s = some items) :
    ∃ ps, Format lib.enc s ps := by
  induction hn : s.length using Nat.strongRecOn generalizing s buf items with
  | _ n ih =>
    subst hn
    cases s with
    | nil => exact ⟨[], .nil⟩
    | cons c s =>
      by_cases h1 : c = '%'
      · subst h1
        rw [format_percent] at h
        split at h
        · cases h
        · rename_i item rest hp
          obtain ⟨l, hl, _⟩ := Option.map_eq_some_iff.mp h
          have hlen := parsePercent_length _ _ _ hp
          obtain ⟨ps, hps⟩ := ih _ (by simp; omega) rest [] l hl rfl
          rcases parsePercent_sound s item rest hp with ⟨rfl, _⟩ | ⟨f, w, p, l, rfl, wf, ha, _⟩
          · exact ⟨_, .percent rest ps hps⟩
          · exact ⟨_, .conv f w p l rest ps wf.flags wf.width wf.first wf.prec ha hps⟩
      · by_cases h2 : c = '\\'
        · subst h2
          cases s with
          | nil =>
            rw [format_last] at h
            obtain ⟨b, hb, h⟩ := Option.bind_eq_some_iff.mp h
            exact ⟨_, .backslash [] b [] (by simp) hb .nil⟩
          | cons d s' =>
            rw [format_escape] at h
            split at h
            · rename_i k hk
              obtain ⟨ps, hps⟩ := ih _ (by simp; omega) s' _ _ h rfl
              exact ⟨_, .control d k s' ps ((formatEscape_table d k).mp hk) hps⟩
            · rename_i hk
              split at h
              · rename_i hd
                obtain ⟨ds, rest, hs, hr⟩ := octal_exists (d :: s')
                have hne : ds ≠ [] := by
                  rintro rfl
                  simp only [List.nil_append] at hs
                  exact hr.2.2 (by simp) d (by simp [← hs]) ((mem_octalDigits d).mpr hd)
                rw [hs, octal_three ds rest hr] at h
                have hlen : rest.length < (d :: s').length := by
                  rw [hs]
                  cases ds with
                  | nil => exact absurd rfl hne
                  | cons x ds => simp; omega
                obtain ⟨ps, hps⟩ := ih _ (by simp at hlen ⊢; omega) rest _ _ h rfl
                rw [hs]
                exact ⟨_, .octal ds rest ps hne hr hps⟩
              · rename_i hd
                obtain ⟨b, hb, h⟩ := Option.bind_eq_some_iff.mp h
                obtain ⟨ps, hps⟩ := ih _ (by simp) (d :: s') _ _ h rfl
                refine ⟨_, .backslash (d :: s') b ps ?_ hb hps⟩
                intro x hx
                simp only [List.head?_cons, Option.mem_some_iff] at hx
                subst hx
                refine ⟨?_, fun hx => hd ((mem_octalDigits _).mp hx)⟩
                intro hm
                simp only [List.mem_cons, List.not_mem_nil, or_false] at hm
                rcases hm with t | t | t | t | t | t | t | t | t | t <;> subst t <;>
                  exact absurd hk (by decide)
        · rw [format_plain _ _ _ _ h1 h2] at h
          obtain ⟨b, hb, h⟩ := Option.bind_eq_some_iff.mp h
          obtain ⟨ps, hps⟩ := ih _ (by simp) s _ _ h rfl
          exact ⟨_, .plain c s b ps h1 h2 hb hps⟩

/-- A format according to the specification is accepted, and what is found does the same as its
pieces. -/
theorem parseFormat_complete {F : Type} (lib : Lib F) (s : List Char) (ps : List Piece)
    (h : Format lib.enc s ps) (buf : List Byte) :
    ∃ items, parseFormat lib.enc buf s = some items ∧
      ∀ args, pass lib items args = pass lib (.raw buf :: ps.map toItem) args := by
  -- text is added to the buffer
  have text : ∀ (s' : List Char) (b : List Byte) (ps : List Piece),
      (∃ items, parseFormat lib.enc (buf ++ b) s' = some items ∧
        ∀ args, pass lib items args = pass lib (.raw (buf ++ b) :: ps.map toItem) args) →
      ∃ items, parseFormat lib.enc (buf ++ b) s' = some items ∧
        ∀ args, pass lib items args =
          pass lib (.raw buf :: (Piece.text b :: ps).map toItem) args := by
    rintro s' b ps ⟨items, h1, h2⟩
    refine ⟨items, h1, fun args => ?_⟩
    rw [h2, pass_raw_raw]
    rfl
  induction h generalizing buf with
  | nil =>
    refine ⟨makeString buf [], by rw [parseFormat], fun args => ?_⟩
    rw [pass_makeString]
    rfl
  | plain c s b ps h1 h2 hb _ ih =>
    rw [format_plain _ _ _ _ h1 h2, hb]
    exact text s b ps (ih _ (fun s' b' ps' => by
      rintro ⟨items, e1, e2⟩
      refine ⟨items, e1, fun args => ?_⟩
      rw [e2, pass_raw_raw]; rfl))
  | control l k s ps hk _ ih =>
    rw [format_escape, (formatEscape_table l k).mpr hk]
    exact text s [k] ps (ih _ (fun s' b' ps' => by
      rintro ⟨items, e1, e2⟩
      refine ⟨items, e1, fun args => ?_⟩
      rw [e2, pass_raw_raw]; rfl))
  | octal ds s ps hne hr _ ih =>
    cases ds with
    | nil => exact absurd rfl hne
    | cons d ds =>
      have hd := hr.1 d (by simp)
      have hesc : formatEscape d = none := by
        apply noFormatEscape
        intro hm
        simp only [octalDigits, List.mem_cons, List.not_mem_nil, or_false] at hd hm
        rcases hd with t | t | t | t | t | t | t | t <;> subst t <;> simp at hm
      rw [List.cons_append, format_escape, hesc]
      simp only [(mem_octalDigits d).mp hd, and_self, if_true]
      have := octal_three (d :: ds) s hr
      rw [List.cons_append] at this
      rw [this]
      exact text s _ ps (ih _ (fun s' b' ps' => by
        rintro ⟨items, e1, e2⟩
        refine ⟨items, e1, fun args => ?_⟩
        rw [e2, pass_raw_raw]; rfl))
  | backslash s b ps hs hb _ ih =>
    have fin := text s b ps (ih _ (fun s' b' ps' => by
      rintro ⟨items, e1, e2⟩
      refine ⟨items, e1, fun args => ?_⟩
      rw [e2, pass_raw_raw]; rfl))
    cases s with
    | nil => rw [format_last, hb]; exact fin
    | cons d s' =>
      obtain ⟨hd1, hd2⟩ := hs d (by simp)
      rw [format_escape, noFormatEscape d hd1]
      simp only
      rw [if_neg (fun h => hd2 ((mem_octalDigits d).mpr h)), hb]
      exact fin
  | percent s ps _ ih =>
    rw [format_percent, parsePercent_percent]
    obtain ⟨items, e1, e2⟩ := ih [] (fun s' b' ps' => by
      rintro ⟨items, e1, e2⟩
      refine ⟨items, e1, fun args => ?_⟩
      rw [e2, pass_raw_raw]; rfl)
    refine ⟨_, by simp only [e1, Option.map_some]; rfl, fun args => ?_⟩
    rw [pass_makeString]
    apply pass_congr
    intro args
    rw [pass_percent]
    apply pass_congr
    intro args
    rw [e2, pass_raw]
    cases pass lib (ps.map toItem) args <;> simp
  | conv f w p l s ps h1 h2 h3 h4 ha _ ih =>
    rw [format_percent, parsePercent_conv ⟨h1, h2, h3, h4⟩ ha]
    obtain ⟨items, e1, e2⟩ := ih [] (fun s' b' ps' => by
      rintro ⟨items, e1, e2⟩
      refine ⟨items, e1, fun args => ?_⟩
      rw [e2, pass_raw_raw]; rfl)
    refine ⟨_, by simp only [e1, Option.map_some]; rfl, fun args => ?_⟩
    rw [pass_makeString]
    apply pass_congr
    intro args
    rw [List.map_cons]
    apply pass_congr
    intro args
    rw [e2, pass_raw]
    cases pass lib (ps.map toItem) args <;> simp

end Yash.Printf
