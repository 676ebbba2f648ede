import Verif.Printf.Format
/-!
# Operands

What a piece prints, and how the passes over the format share the operands.
-/
set_option autoImplicit false

namespace Yash.Printf

open Spec

theorem number_iff {α : Type} (read : List Char → α × List Char × Bool) (code : Nat → α)
    (a : Option (List Char)) (v : α) (valid : Bool) :
    Number read code a v valid ↔
      (match a.getD ['0'] with
        | '"' :: s | '\'' :: s => (code (s.headD '\x00').toNat, true)
        | _ =>
          ((read (a.getD ['0'])).1,
            !((read (a.getD ['0'])).2.2 || (a.getD ['0']).isEmpty ||
              !(read (a.getD ['0'])).2.1.isEmpty))) = (v, valid) := by
  constructor
  · intro h
    cases h with
    | missing v r e he =>
      simp [he, Bool.and_comm]
    | character q c s hq => rcases hq with rfl | rfl <;> simp
    | noCharacter q hq => rcases hq with rfl | rfl <;> simp
    | number s v r e hs he =>
      simp only [Option.getD_some]
      split
      · simp at hs
      · simp at hs
      · simp only [he, Prod.mk.injEq, true_and, Bool.not_or, Bool.not_not]
        cases e <;> cases s.isEmpty <;> cases r.isEmpty <;> rfl
  · intro h
    cases a with
    | none =>
      simp at h
      obtain ⟨rfl, rfl⟩ := h
      have := Number.missing (code := code) _ _ _ (show read ['0'] = (_, _, _) from rfl)
      simpa [Bool.and_comm] using this
    | some s =>
      simp only [Option.getD_some] at h
      split at h
      · rename_i t
        simp only [Prod.mk.injEq] at h
        obtain ⟨rfl, rfl⟩ := h
        cases t with
        | nil => exact .noCharacter '"' (.inl rfl)
        | cons c t => exact .character '"' c t (.inl rfl)
      · rename_i t
        simp only [Prod.mk.injEq] at h
        obtain ⟨rfl, rfl⟩ := h
        cases t with
        | nil => exact .noCharacter '\'' (.inr rfl)
        | cons c t => exact .character '\'' c t (.inr rfl)
      · rename_i h1 h2
        simp only [Prod.mk.injEq] at h
        obtain ⟨rfl, rfl⟩ := h
        have := Number.number (code := code) s _ _ _ ?_ (show read s = (_, _, _) from rfl)
        · have e : (!s.isEmpty && (read s).2.1.isEmpty && !(read s).2.2) =
              (!((read s).2.2 || s.isEmpty || !(read s).2.1.isEmpty)) := by
            cases (read s).2.2 <;> cases s.isEmpty <;> cases (read s).2.1.isEmpty <;> rfl
          rw [← e]
          exact this
        · intro q hq
          cases s with
          | nil => simp at hq
          | cons c t =>
            simp at hq
            subst hq
            exact ⟨fun h => h1 t (by rw [h]), fun h => h2 t (by rw [h])⟩

theorem parseInt_iff {F : Type} (lib : Lib F) (a : Option (List Char)) (v : Int) (valid : Bool) :
    Number lib.imax Int.ofNat a v valid ↔ parseInt lib (a.getD ['0']) = (v, valid) := by
  rw [number_iff]
  unfold parseInt
  generalize a.getD ['0'] = s
  split
  · rfl
  · rfl
  · rename_i h1 h2
    split
    · exact absurd rfl (h1 _)
    · exact absurd rfl (h2 _)
    · rfl

theorem parseUint_iff {F : Type} (lib : Lib F) (a : Option (List Char)) (v : Nat) (valid : Bool) :
    Number lib.umax id a v valid ↔ parseUint lib (a.getD ['0']) = (v, valid) := by
  rw [number_iff]
  unfold parseUint
  generalize a.getD ['0'] = s
  split
  · rfl
  · rfl
  · rename_i h1 h2
    split
    · exact absurd rfl (h1 _)
    · exact absurd rfl (h2 _)
    · rfl

theorem truncate_iff {f w p : List Char} (h : WF f w p) (sub cut : List Byte) :
    (p = [] ∧ cut = sub ∨ ∃ ds, p = '.' :: ds ∧ cut = sub.take (decimalValue ds)) ↔
      cut = truncate (maxOf p) sub := by
  rcases h.prec with rfl | ⟨ds, rfl, _⟩
  · simp [truncate, maxOf]
  · simp only [List.cons_ne_nil, false_and, false_or, truncate, maxOf, decimal_eq]
    have e : (if decimalValue ds < sub.length then sub.take (decimalValue ds) else sub) =
        sub.take (decimalValue ds) := by
      split
      · rfl
      · rw [List.take_of_length_le (by omega)]
    rw [e]
    constructor
    · rintro ⟨ds', h, rfl⟩
      cases h
      rfl
    · rintro rfl
      exact ⟨ds, rfl, rfl⟩

theorem all_eq_replicate (l : List Byte) (n : Nat) (h : ∀ b ∈ l, b = 32) (hn : l.length = n) :
    l = List.replicate n 32 := by
  subst hn
  exact List.eq_replicate_iff.mpr ⟨rfl, h⟩

theorem printEscape_iff {f w p : List Char} (h : WF f w p) (enc : Char → Option (List Byte))
    (s : List Char) (out : List Byte) (e : Bool) :
    printEscape enc (f.any (· = '-')) (strtoul w) (maxOf p) s = some (out, e) ↔
      ∃ t, Escaped enc s t e ∧ Padded ('-' ∈ f) w p t out := by
  have pad : ∀ sub, Padded ('-' ∈ f) w p sub out ↔
      out = padTo (f.any (· = '-')) (strtoul w) (truncate (maxOf p) sub) := by
    intro sub
    rw [decimal_eq, any_eq]
    simp only [padTo, decide_eq_true_eq]
    constructor
    · rintro ⟨cut, blank, h1, h2, h3, h4⟩
      rw [truncate_iff h] at h1
      subst h1
      have hl : blank.length = decimalValue w - (truncate (maxOf p) sub).length := by
        rcases h3 with ⟨rfl, _⟩ | ⟨rfl, _⟩ <;> simp at h4 <;> omega
      have hb := all_eq_replicate blank _ h2 hl
      split
      · have : blank = [] := List.eq_nil_of_length_eq_zero (by omega)
        rcases h3 with ⟨rfl, _⟩ | ⟨rfl, _⟩ <;> simp [this]
      · rcases h3 with ⟨rfl, hf⟩ | ⟨rfl, hf⟩
        · rw [if_pos hf, ← hb]
        · rw [if_neg hf, ← hb]
    · intro ho
      refine ⟨truncate (maxOf p) sub, List.replicate (decimalValue w - (truncate (maxOf p) sub).length) 32,
        (truncate_iff h _ _).mpr rfl, fun b hb => (List.mem_replicate.mp hb).2, ?_, ?_⟩
      · rw [ho]
        split
        · rw [Nat.sub_eq_zero_of_le ‹_›]
          by_cases hf : '-' ∈ f <;> simp [hf]
        · by_cases hf : '-' ∈ f <;> simp [hf]
      · rw [ho]
        split
        · omega
        · split <;> simp <;> omega
  simp only [pad, printEscape, Option.map_eq_some_iff, Prod.mk.injEq]
  constructor
  · rintro ⟨⟨sub, e'⟩, hs, rfl, rfl⟩
    exact ⟨sub, (echoParseEscape_iff _ _ _ _).mp hs, rfl⟩
  · rintro ⟨t, ht, rfl⟩
    exact ⟨(t, e), (echoParseEscape_iff _ _ _ _).mpr ht, rfl, rfl⟩

/-- A piece prints what the specification says. -/
theorem prints_iff {F : Type} (lib : Lib F) {f w p : List Char} (h : WF f w p) {l : Char}
    (ha : Allowed f l) (a : Option (List Char)) (out : List Byte) (stop valid : Bool) :
    Prints lib (.conv f w p l) a out stop valid ↔
      ∃ used, printItem lib (itemOf f w p l) a = some ⟨out, used, stop, valid⟩ := by
  constructor
  · intro hp
    cases hp with
    | string _ _ _ _ _ hf =>
      exact ⟨a.isSome, by simp [itemOf, printItem, hf]⟩
    | char _ _ _ c s _ hf =>
      exact ⟨true, by simp [itemOf, printItem, hf]⟩
    | noChar _ _ _ _ hn =>
      rcases hn with rfl | rfl <;> exact ⟨false, by simp [itemOf, printItem]⟩
    | signed _ _ _ _ _ v _ _ hl hn hf =>
      rw [parseInt_iff] at hn
      exact ⟨_, by simp [itemOf, hl, printItem, hn, hf]; rfl⟩
    | unsigned _ _ _ _ _ v _ _ hl hn hf =>
      rw [parseUint_iff] at hn
      have : l ∉ ['d', 'i'] := by
        simp only [List.mem_cons, List.not_mem_nil, or_false] at hl
        rcases hl with rfl | rfl | rfl | rfl <;> decide
      exact ⟨_, by simp [itemOf, hl, this, printItem, hn, hf]; rfl⟩
    | floating _ _ _ _ _ s r e v _ hl hs hn hf =>
      have h1 : l ∉ ['d', 'i'] := by
        simp only [List.mem_cons, List.not_mem_nil, or_false] at hl
        rcases hl with rfl | rfl | rfl | rfl | rfl | rfl <;> decide
      have h2 : l ∉ ['u', 'o', 'x', 'X'] := by
        simp only [List.mem_cons, List.not_mem_nil, or_false] at hl
        rcases hl with rfl | rfl | rfl | rfl | rfl | rfl <;> decide
      refine ⟨a.isSome, ?_⟩
      rw [itemOf, if_neg h1, if_neg h2, if_pos hl]
      simp only [printItem, ← hs, hn, hf, Option.map_some]
      congr 2
      cases e <;> cases s.isEmpty <;> cases r.isEmpty <;> rfl
    | escaped _ _ _ _ t _ _ he hp =>
      have := (printEscape_iff h lib.enc (a.getD []) out stop).mpr ⟨t, he, hp⟩
      exact ⟨a.isSome, by simp [itemOf, printItem, this]⟩
  · rintro ⟨used, hp⟩
    by_cases h1 : l ∈ ['d', 'i']
    · rw [itemOf, if_pos h1] at hp
      simp only [printItem] at hp
      obtain ⟨b, hb, he⟩ := Option.map_eq_some_iff.mp hp
      cases he
      exact .signed f w p l a _ _ _ h1 ((parseInt_iff _ _ _ _).mpr rfl) hb
    · by_cases h2 : l ∈ ['u', 'o', 'x', 'X']
      · rw [itemOf, if_neg h1, if_pos h2] at hp
        simp only [printItem] at hp
        obtain ⟨b, hb, he⟩ := Option.map_eq_some_iff.mp hp
        cases he
        exact .unsigned f w p l a _ _ _ h2 ((parseUint_iff _ _ _ _).mpr rfl) hb
      · by_cases h3 : l ∈ ['f', 'F', 'e', 'E', 'g', 'G']
        · rw [itemOf, if_neg h1, if_neg h2, if_pos h3] at hp
          simp only [printItem] at hp
          obtain ⟨b, hb, he⟩ := Option.map_eq_some_iff.mp hp
          cases he
          have := Prints.floating (lib := lib) f w p l a _ _ _ _ out h3 rfl rfl hb
          have e : (!(a.getD ['0']).isEmpty && (lib.float (a.getD ['0'])).2.1.isEmpty &&
              !(lib.float (a.getD ['0'])).2.2) =
              (!((lib.float (a.getD ['0'])).2.2 || (a.getD ['0']).isEmpty ||
                !(lib.float (a.getD ['0'])).2.1.isEmpty)) := by
            cases (lib.float (a.getD ['0'])).2.2 <;> cases (a.getD ['0']).isEmpty <;>
              cases (lib.float (a.getD ['0'])).2.1.isEmpty <;> rfl
          rw [← e]
          exact this
        · have h4 : l ∈ ['c', 's', 'b'] := by
            rcases ha with ha | ha | ha
            · exfalso
              simp only [List.mem_cons, List.not_mem_nil, or_false] at ha h2 h3
              rcases ha with rfl | rfl | rfl | rfl | rfl | rfl | rfl | rfl | rfl <;>
                first | exact h2 (by decide) | exact h3 (by decide)
            · exfalso
              have ha := ha.1
              simp only [List.mem_cons, List.not_mem_nil, or_false] at ha h1 h2
              rcases ha with rfl | rfl | rfl <;> first | exact h1 (by decide) | exact h2 (by decide)
            · exact ha.1
          simp only [List.mem_cons, List.not_mem_nil, or_false] at h4
          rcases h4 with rfl | rfl | rfl
          · rw [show itemOf f w p 'c' = .chr (cspec f w p 'l' 'c') from by simp [itemOf]] at hp
            match a, hp with
            | none, hp => simp [printItem] at hp; obtain ⟨rfl, _, rfl, rfl⟩ := hp; exact .noChar _ _ _ _ (.inl rfl)
            | some [], hp => simp [printItem] at hp; obtain ⟨rfl, _, rfl, rfl⟩ := hp; exact .noChar _ _ _ _ (.inr rfl)
            | some (c :: s), hp =>
              simp only [printItem] at hp
              obtain ⟨b, hb, he⟩ := Option.map_eq_some_iff.mp hp
              cases he
              exact .char _ _ _ _ _ _ hb
          · rw [show itemOf f w p 's' = .str (cspec f w p 'l' 's') from by simp [itemOf]] at hp
            simp only [printItem] at hp
            obtain ⟨b, hb, he⟩ := Option.map_eq_some_iff.mp hp
            cases he
            exact .string _ _ _ _ _ hb
          · rw [show itemOf f w p 'b' = .echo (f.any (· = '-')) (strtoul w) (maxOf p) from by
              simp [itemOf]] at hp
            simp only [printItem] at hp
            obtain ⟨b, hb, he⟩ := Option.map_eq_some_iff.mp hp
            cases he
            obtain ⟨t, ht, hpad⟩ := (printEscape_iff h lib.enc (a.getD []) b.1 b.2).mp hb
            exact .escaped _ _ _ _ _ _ _ ht hpad

/-! ## Passes -/

/-- Pieces of a format. -/
def Good : Piece → Prop
  | .text _ => True
  | .conv f w p l => WF f w p ∧ Allowed f l

theorem format_good {enc : Char → Option (List Byte)} {s : List Char} {ps : List Piece}
    (h : Format enc s ps) : ∀ p ∈ ps, Good p := by
  induction h with
  | nil => simp
  | plain _ _ _ _ _ _ _ _ ih | control _ _ _ _ _ _ ih | octal _ _ _ _ _ _ ih
  | backslash _ _ _ _ _ _ ih | percent _ _ _ ih =>
    intro p hp
    rcases List.mem_cons.mp hp with rfl | hp
    · trivial
    · exact ih p hp
  | conv f w p l s ps h1 h2 h3 h4 ha _ ih =>
    intro q hq
    rcases List.mem_cons.mp hq with rfl | hq
    · exact ⟨⟨h1, h2, h3, h4⟩, ha⟩
    · exact ih q hq

theorem prints_good {F : Type} (lib : Lib F) {p : Piece} (h : Good p) (a : Option (List Char))
    (out : List Byte) (stop valid : Bool) :
    Prints lib p a out stop valid ↔
      ∃ used, printItem lib (toItem p) a = some ⟨out, used, stop, valid⟩ := by
  cases p with
  | text b =>
    constructor
    · intro h
      cases h
      exact ⟨false, rfl⟩
    · rintro ⟨used, h⟩
      simp only [toItem, printItem, Option.some.injEq, Step.mk.injEq] at h
      obtain ⟨rfl, _, rfl, rfl⟩ := h
      exact .text _ _
  | conv f w p l => exact prints_iff lib h.1 h.2 a out stop valid

/-- The outcome, computed. -/
def outcome {F : Type} (lib : Lib F) :
    List (Piece × Option (List Char)) → Option (List Byte × Bool)
  | [] => some ([], true)
  | (p, a) :: us =>
    match printItem lib (toItem p) a with
    | none => none
    | some r =>
      if r.ended then some (r.out, r.valid)
      else
        match outcome lib us with
        | none => none
        | some (out, valid) => some (r.out ++ out, r.valid && valid)

theorem outcome_iff {F : Type} (lib : Lib F) (us : List (Piece × Option (List Char)))
    (hg : ∀ u ∈ us, Good u.1) (out : List Byte) (valid : Bool) :
    Outcome lib us out valid ↔ outcome lib us = some (out, valid) := by
  induction us generalizing out valid with
  | nil =>
    constructor
    · intro h; cases h; rfl
    · intro h; simp only [outcome] at h; cases h; exact .nil
  | cons u us ih =>
    obtain ⟨p, a⟩ := u
    have hp : Good p := hg (p, a) (by simp)
    have ih := ih (fun u hu => hg u (by simp [hu]))
    constructor
    · intro h
      cases h with
      | stop _ _ _ _ _ h =>
        obtain ⟨used, h⟩ := (prints_good lib hp _ _ _ _).mp h
        simp [outcome, h]
      | cons _ _ _ b o v vs h h' =>
        obtain ⟨used, h⟩ := (prints_good lib hp _ _ _ _).mp h
        simp [outcome, h, (ih _ _).mp h']
    · intro h
      simp only [outcome] at h
      split at h
      · cases h
      · rename_i r hr
        obtain ⟨ro, ru, re, rv⟩ := r
        cases re
        · simp only [Bool.false_eq_true, if_false] at h
          split at h
          · cases h
          · rename_i o vs ho
            cases h
            exact .cons _ _ _ _ _ _ _ ((prints_good lib hp _ _ _ _).mpr ⟨ru, hr⟩) ((ih _ _).mpr ho)
        · simp only [if_true] at h
          cases h
          exact .stop _ _ _ _ _ ((prints_good lib hp _ _ _ _).mpr ⟨ru, hr⟩)

/-- No empty operand for a `%c`. -/
def NoEmptyChar (u : Piece × Option (List Char)) : Prop :=
  ∀ f w p, u.1 = .conv f w p 'c' → u.2 ≠ some []

theorem used_conv {F : Type} (lib : Lib F) (f w p : List Char) (l : Char) (a : Option (List Char))
    (h : NoEmptyChar (.conv f w p l, a)) (r : Step)
    (hr : printItem lib (itemOf f w p l) a = some r) : r.used = a.isSome := by
  unfold itemOf at hr
  by_cases hc : l = 'c'
  · subst hc
    have := h f w p rfl
    match a, hr, this with
    | none, hr, _ => simp [printItem] at hr; subst hr; rfl
    | some [], _, this => exact absurd rfl this
    | some (c :: s), hr, _ =>
      simp [printItem] at hr
      obtain ⟨b, _, rfl⟩ := hr
      rfl
  · repeat' split at hr
    all_goals first
      | exact absurd ‹l = 'c'› hc
      | (simp only [printItem] at hr
         obtain ⟨b, _, rfl⟩ := Option.map_eq_some_iff.mp hr
         rfl)

theorem used_text {F : Type} (lib : Lib F) (b : List Byte) (a : Option (List Char)) :
    printItem lib (toItem (.text b)) a = some ⟨b, false, false, true⟩ := rfl

/-- One pass is the outcome for the operands from one number on. -/
theorem pass_outcome {F : Type} (lib : Lib F) (args : List (List Char)) (ps : List Piece) (i : Nat)
    (hc : ∀ u ∈ withOperands args i ps, NoEmptyChar u)
    (more : List (Piece × Option (List Char))) :
    match pass lib (ps.map toItem) (args.drop i) with
    | none => outcome lib (withOperands args i ps ++ more) = none
    | some p =>
      if p.ended then outcome lib (withOperands args i ps ++ more) = some (p.out, p.valid)
      else p.rest = args.drop (i + convs ps) ∧
        outcome lib (withOperands args i ps ++ more) =
          (outcome lib more).map fun r => (p.out ++ r.1, p.valid && r.2) := by
  induction ps generalizing i with
  | nil =>
    simp only [List.map_nil, pass, Bool.false_eq_true, if_false]
    refine ⟨by simp [convs], ?_⟩
    simp only [withOperands, List.nil_append, Bool.true_and]
    cases outcome lib more <;> rfl
  | cons q ps ih =>
    cases q with
    | text b =>
      have ih := ih i (fun u hu => hc u (by simp [withOperands, hu]))
      simp only [List.map_cons, pass, withOperands, List.cons_append, outcome, used_text,
        Bool.false_eq_true, if_false]
      split at ih
      · rename_i h
        rw [h]
        simp [ih]
      · rename_i p h
        rw [h]
        simp only [Bool.true_and]
        split at ih
        · rw [if_pos ‹_›, ih]
        · rw [if_neg ‹_›]
          refine ⟨by rw [ih.1]; rfl, ?_⟩
          rw [ih.2]
          cases outcome lib more <;> simp
    | conv f w p l =>
      have ih := ih (i + 1) (fun u hu => hc u (by simp [withOperands, hu]))
      have hu := used_conv lib f w p l args[i]? (hc _ (by simp [withOperands]))
      have hconv : convs (.conv f w p l :: ps) = convs ps + 1 := by simp [convs]
      have hhead : (args.drop i).head? = args[i]? := by simp
      simp only [List.map_cons, toItem, pass, withOperands, List.cons_append, outcome, hhead]
      cases hr : printItem lib (itemOf f w p l) args[i]? with
      | none => simp
      | some r =>
        have hargs : (if r.used = true then (args.drop i).tail else args.drop i) =
            args.drop (i + 1) := by
          rw [hu r hr]
          split
          · simp
          · rename_i h
            have : args.length ≤ i := by simpa using h
            rw [List.drop_eq_nil_of_le this, List.drop_eq_nil_of_le (by omega)]
        simp only [hargs]
        obtain ⟨ro, ru, re, rv⟩ := r
        cases re
        · simp only [Bool.false_eq_true, if_false]
          split at ih
          · rename_i h
            rw [h]
            simp [ih]
          · rename_i q h
            rw [h]
            simp only
            split at ih
            · rw [if_pos ‹_›, ih]
            · rw [if_neg ‹_›]
              refine ⟨by rw [ih.1, hconv]; congr 1; omega, ?_⟩
              rw [ih.2]
              cases outcome lib more <;> simp [Bool.and_assoc]
        · simp

theorem pass_none_used {F : Type} (lib : Lib F) (ps : List Piece) (h : convs ps = 0)
    (args : List (List Char)) (p : Pass) (hp : pass lib (ps.map toItem) args = some p) :
    p.rest = args := by
  induction ps generalizing p with
  | nil => simp [pass] at hp; rw [← hp]
  | cons q ps ih =>
    cases q with
    | conv => simp [convs] at h
    | text b =>
      simp only [List.map_cons, toItem, pass_raw] at hp
      obtain ⟨p', hp', rfl⟩ := Option.map_eq_some_iff.mp hp
      exact ih (by simpa [convs] using h) p' hp'

theorem passes_eq {F : Type} (lib : Lib F) (items : List Item) (args : List (List Char)) :
    passes lib items args =
      match pass lib items args with
      | none => none
      | some p =>
        if p.ended then some (p.out, p.valid)
        else if p.rest ≠ [] ∧ p.rest.length ≠ args.length then
          (passes lib items p.rest).map fun r => (p.out ++ r.1, p.valid && r.2)
        else some (p.out, p.valid) := by
  rw [passes]
  split
  · rename_i h; rw [h]
  · rename_i p h
    rw [h]
    simp only
    split
    · rfl
    · split
      · cases passes lib items p.rest <;> rfl
      · rfl

theorem passes_congr {F : Type} (lib : Lib F) (i j : List Item)
    (h : ∀ args, pass lib i args = pass lib j args) (args : List (List Char)) :
    passes lib i args = passes lib j args := by
  induction hn : args.length using Nat.strongRecOn generalizing args with
  | _ n ih =>
    subst hn
    rw [passes_eq, passes_eq lib j, h]
    split
    · rfl
    · rename_i p hp
      split
      · rfl
      · split
        · rename_i hr
          have := pass_length _ _ _ _ hp
          rw [ih p.rest.length (by omega) p.rest rfl]
        · rfl

/-- The rounds from number `r` on. -/
def usesFrom (ps : List Piece) (args : List (List Char)) (r n : Nat) :
    List (Piece × Option (List Char)) :=
  (List.range' r n).flatMap fun r => withOperands args (r * convs ps) ps

theorem usesFrom_succ (ps : List Piece) (args : List (List Char)) (r n : Nat) :
    usesFrom ps args r (n + 1) =
      withOperands args (r * convs ps) ps ++ usesFrom ps args (r + 1) n := by
  simp [usesFrom, List.range'_succ]

theorem rounds_step (k n r : Nat) (hk : 0 < k) (h : r * k < n) :
    max 1 ((n + k - 1) / k) - r = max 1 ((n + k - 1) / k) - (r + 1) + 1 ∧
      ((r + 1) * k < n ↔ max 1 ((n + k - 1) / k) - (r + 1) ≠ 0) := by
  have h1 : r < (n + k - 1) / k := by
    rw [Nat.lt_iff_add_one_le, Nat.le_div_iff_mul_le hk, Nat.add_mul]
    omega
  have h2 : (r + 1) * k < n ↔ r + 1 < (n + k - 1) / k := by
    rw [Nat.lt_iff_add_one_le (m := r + 1), Nat.le_div_iff_mul_le hk, Nat.add_mul (r + 1)]
    omega
  rw [h2]
  omega

theorem passes_rounds {F : Type} (lib : Lib F) (ps : List Piece) (args : List (List Char))
    (hk : 0 < convs ps) (m r : Nat) (hr : r * convs ps < args.length)
    (hm : m = rounds ps args.length - r)
    (hc : ∀ u ∈ usesFrom ps args r m, NoEmptyChar u) :
    passes lib (ps.map toItem) (args.drop (r * convs ps)) = outcome lib (usesFrom ps args r m) := by
  induction m generalizing r with
  | zero =>
    exfalso
    have := (rounds_step _ _ _ hk hr).1
    unfold rounds at hm
    rw [if_neg (by omega)] at hm
    omega
  | succ m ih =>
    have hstep := rounds_step _ _ _ hk hr
    have hm' : m = rounds ps args.length - (r + 1) := by omega
    rw [usesFrom_succ] at hc ⊢
    have hp := pass_outcome lib args ps (r * convs ps)
      (fun u hu => hc u (List.mem_append_left _ hu)) (usesFrom ps args (r + 1) m)
    rw [passes_eq]
    cases h : pass lib (ps.map toItem) (args.drop (r * convs ps)) with
    | none => rw [h] at hp; simp only at hp ⊢; rw [hp]
    | some p =>
      rw [h] at hp
      simp only at hp ⊢
      split at hp
      · rw [if_pos ‹_›, hp]
      · rw [if_neg ‹_›]
        have e : r * convs ps + convs ps = (r + 1) * convs ps := by rw [Nat.add_mul]; omega
        rw [e] at hp
        obtain ⟨hp1, hp2⟩ := hp
        rw [hp1, hp2]
        by_cases hmore : (r + 1) * convs ps < args.length
        · rw [if_pos ?_, ih (r + 1) hmore hm' (fun u hu => hc u (List.mem_append_right _ hu))]
          refine ⟨?_, ?_⟩
          · intro h0
            have := List.length_eq_zero_iff.mpr h0
            simp at this
            omega
          · simp
            rw [← e] at hmore ⊢
            omega
        · have hm0 : m = 0 := by
            have := hstep.2
            unfold rounds at hm'
            rw [if_neg (by omega)] at hm'
            omega
          rw [if_neg ?_, hm0]
          · simp [usesFrom, outcome]
          · intro h0
            exact h0.1 (List.drop_eq_nil_of_le (by omega))

/-- All passes together are the outcome of all uses. -/
theorem passes_outcome {F : Type} (lib : Lib F) (ps : List Piece) (args : List (List Char))
    (hc : ∀ u ∈ uses ps args, NoEmptyChar u) :
    passes lib (ps.map toItem) args = outcome lib (uses ps args) := by
  have huses : uses ps args = usesFrom ps args 0 (rounds ps args.length) := by
    simp [uses, usesFrom, List.range_eq_range']
  rw [huses] at hc ⊢
  by_cases hk : convs ps = 0
  · -- no operands are used
    have hr : rounds ps args.length = 1 := by simp [rounds, hk]
    rw [hr] at hc ⊢
    rw [usesFrom_succ] at hc ⊢
    have hp := pass_outcome lib args ps (0 * convs ps)
      (fun u hu => hc u (List.mem_append_left _ hu)) (usesFrom ps args 1 0)
    rw [passes_eq]
    simp only [Nat.zero_mul, List.drop_zero, Nat.zero_add] at hp ⊢
    cases h : pass lib (ps.map toItem) args with
    | none => rw [h] at hp; simp only at hp ⊢; rw [hp]
    | some p =>
      have := pass_none_used lib ps hk args p h
      rw [h] at hp
      simp only at hp ⊢
      split at hp
      · rw [if_pos ‹_›, hp]
      · rw [if_neg ‹_›, hp.2, if_neg (by rw [this]; simp)]
        simp [usesFrom, outcome]
  · by_cases ha : args.length = 0
    · have : args = [] := List.length_eq_zero_iff.mp ha
      subst this
      have hr : rounds ps ([] : List (List Char)).length = 1 := by
        simp only [rounds, hk, if_false, List.length_nil]
        rw [Nat.div_eq_of_lt (by omega)]
        rfl
      rw [hr] at hc ⊢
      rw [usesFrom_succ] at hc ⊢
      have hp := pass_outcome lib [] ps (0 * convs ps)
        (fun u hu => hc u (List.mem_append_left _ hu)) (usesFrom ps [] 1 0)
      rw [passes_eq]
      simp only [Nat.zero_mul, List.drop_zero, Nat.zero_add] at hp ⊢
      cases h : pass lib (ps.map toItem) [] with
      | none => rw [h] at hp; simp only at hp ⊢; rw [hp]
      | some p =>
        have hl := pass_length _ _ _ _ h
        have : p.rest = [] := List.length_eq_zero_iff.mp (by simpa using hl)
        rw [h] at hp
        simp only at hp ⊢
        split at hp
        · rw [if_pos ‹_›, hp]
        · rw [if_neg ‹_›, hp.2, if_neg (by rw [this]; simp)]
          simp [usesFrom, outcome]
    · have := passes_rounds lib ps args (by omega) (rounds ps args.length) 0 (by omega) rfl hc
      simpa using this

end Yash.Printf
