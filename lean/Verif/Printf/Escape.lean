import Verif.Printf.Spec
/-!
# Escapes

`echoParseEscape` prints what the specification says, and echo may process the operands one by one.
-/
set_option autoImplicit false

namespace Yash.Printf

open Spec

theorem char_le_iff (a b : Char) : a ≤ b ↔ a.toNat ≤ b.toNat := by
  show a.val ≤ b.val ↔ _
  exact UInt32.le_iff_toNat_le

theorem mem_octalDigits (c : Char) : c ∈ octalDigits ↔ '0' ≤ c ∧ c ≤ '7' := by
  constructor
  · intro h
    simp only [octalDigits, List.mem_cons, List.not_mem_nil, or_false] at h
    rcases h with h | h | h | h | h | h | h | h <;> subst h <;> decide
  · intro ⟨h1, h2⟩
    rw [char_le_iff] at h1 h2
    have e0 : ('0' : Char).toNat = 48 := rfl
    have e7 : ('7' : Char).toNat = 55 := rfl
    rw [e0] at h1
    rw [e7] at h2
    have hc : c = Char.ofNat c.toNat := (Char.ofNat_toNat c).symm
    have : c.toNat = 48 ∨ c.toNat = 49 ∨ c.toNat = 50 ∨ c.toNat = 51 ∨ c.toNat = 52 ∨
        c.toNat = 53 ∨ c.toNat = 54 ∨ c.toNat = 55 := by omega
    rcases this with h | h | h | h | h | h | h | h <;> rw [h] at hc <;> rw [hc] <;> decide

/-- The digits that `octal` takes. -/
theorem octal_run (n : Nat) (s : List Char) :
    ∃ ds rest, s = ds ++ rest ∧ (∀ d ∈ ds, d ∈ octalDigits) ∧ ds.length ≤ n ∧
      (ds.length < n → ∀ d ∈ rest.head?, d ∉ octalDigits) := by
  induction n generalizing s with
  | zero => exact ⟨[], s, rfl, by simp, by simp, by simp⟩
  | succ n ih =>
    cases s with
    | nil => exact ⟨[], [], rfl, by simp, by simp, by simp⟩
    | cons c s =>
      by_cases hc : c ∈ octalDigits
      · obtain ⟨ds, rest, h1, h2, h3, h4⟩ := ih s
        refine ⟨c :: ds, rest, by simp [h1], ?_, by simp; omega, ?_⟩
        · intro d hd
          rcases List.mem_cons.mp hd with h | h
          · rw [h]; exact hc
          · exact h2 d h
        · intro h
          exact h4 (by simp at h; omega)
      · exact ⟨[], c :: s, rfl, by simp, by simp, fun _ d hd => by
          simp at hd; rw [← hd]; exact hc⟩

theorem octal_eq (n v : Nat) (ds rest : List Char) (h1 : ∀ d ∈ ds, d ∈ octalDigits)
    (h2 : ds.length ≤ n) (h3 : ds.length < n → ∀ d ∈ rest.head?, d ∉ octalDigits) :
    octal n v (ds ++ rest) = (ds.foldl (fun n d => 8 * n + (d.toNat - 48)) v, rest) := by
  induction n generalizing v ds with
  | zero =>
    have : ds = [] := List.eq_nil_of_length_eq_zero (by omega)
    subst this
    simp [octal]
  | succ n ih =>
    cases ds with
    | nil =>
      cases rest with
      | nil => simp [octal]
      | cons c rest =>
        have := h3 (by simp) c (by simp)
        rw [mem_octalDigits] at this
        simp [octal, this]
    | cons d ds =>
      have hd := (mem_octalDigits d).mp (h1 d (by simp))
      rw [List.cons_append, octal, if_pos hd,
        ih _ ds (fun x hx => h1 x (by simp [hx])) (by simp at h2; omega)
          (fun h => h3 (by simp; omega)), List.foldl_cons]
      have : ('0' : Char).toNat = 48 := rfl
      rw [this, Nat.mul_comm]

theorem octal_three (ds rest : List Char) (h : OctalRun ds rest) :
    octal 3 0 (ds ++ rest) = (octalValue ds, rest) :=
  octal_eq 3 0 ds rest h.1 h.2.1 h.2.2

theorem octal_exists (s : List Char) : ∃ ds rest, s = ds ++ rest ∧ OctalRun ds rest := by
  obtain ⟨ds, rest, h1, h2, h3, h4⟩ := octal_run 3 s
  exact ⟨ds, rest, h1, h2, h3, h4⟩

theorem echoEscape_table (l : Char) (k : Nat) (h : (l, k) ∈ echoTable) :
    echoEscape l = some (Char.ofNat k) := by
  simp only [echoTable, List.mem_cons, List.not_mem_nil, or_false, Prod.mk.injEq] at h
  rcases h with h | h | h | h | h | h | h | h | h <;> obtain ⟨rfl, rfl⟩ := h <;> decide

theorem table_of_echoEscape (l k : Char) (h : echoEscape l = some k) :
    (l, k.toNat) ∈ echoTable := by
  unfold echoEscape at h
  split at h <;> first | (cases h; decide) | cases h

theorem prepend_some (b : Option (List Byte)) (r : Option (List Byte × Bool)) (out : List Byte)
    (e : Bool) : prepend b r = some (out, e) ↔
      ∃ x y, b = some x ∧ r = some (y, e) ∧ out = x ++ y := by
  unfold prepend
  split
  · rename_i x y e'
    constructor
    · intro h
      cases h
      exact ⟨_, _, rfl, rfl, rfl⟩
    · rintro ⟨x', y', hx, hr, rfl⟩
      cases hx
      cases hr
      rfl
  · rename_i h
    constructor
    · intro h; cases h
    · rintro ⟨x, y, rfl, rfl, _⟩
      exact absurd rfl (h x y e rfl)

theorem noEscape (d : Char)
    (h : d ∉ ['a', 'b', 'c', 'e', 'f', 'n', 'r', 't', 'v', '\\', '0']) : echoEscape d = none := by
  cases he : echoEscape d with
  | none => rfl
  | some k =>
    have := table_of_echoEscape d k he
    simp only [echoTable, List.mem_cons, List.not_mem_nil, or_false, Prod.mk.injEq] at this
    simp only [List.mem_cons, List.not_mem_nil, or_false, not_or] at h
    exfalso
    rcases this with t | t | t | t | t | t | t | t | t <;> simp [t.1] at h

theorem parse_plain (enc : Char → Option (List Byte)) (c : Char) (s : List Char) (h : c ≠ '\\') :
    echoParseEscape enc (c :: s) = prepend (enc c) (echoParseEscape enc s) := by
  rw [echoParseEscape.eq_def]
  simp [h]

theorem parse_last (enc : Char → Option (List Byte)) :
    echoParseEscape enc ['\\'] = prepend (enc '\\') (echoParseEscape enc []) := by
  rw [echoParseEscape.eq_def]
  simp

theorem parse_escape (enc : Char → Option (List Byte)) (d : Char) (s' : List Char) :
    echoParseEscape enc ('\\' :: d :: s') =
      match echoEscape d with
      | some k => prepend (enc k) (echoParseEscape enc s')
      | none =>
        if d = 'c' then some ([], true)
        else if d = '0' then
          prepend (some [toChar (octal 3 0 s').1]) (echoParseEscape enc (octal 3 0 s').2)
        else prepend (enc '\\') (echoParseEscape enc (d :: s')) := by
  rw [echoParseEscape.eq_def]
  simp
  cases echoEscape d <;> rfl

/-- What `echo_parse_escape` does is what the specification says. -/
theorem echoParseEscape_iff (enc : Char → Option (List Byte)) (s : List Char) (out : List Byte)
    (e : Bool) : echoParseEscape enc s = some (out, e) ↔ Escaped enc s out e := by
  constructor
  · intro h
    induction hn : s.length using Nat.strongRecOn generalizing s out e with
    | _ n ih =>
      subst hn
      cases s with
      | nil =>
        rw [echoParseEscape] at h
        cases h
        exact .nil
      | cons c s =>
        by_cases hc : c ≠ '\\'
        · rw [parse_plain enc c s hc] at h
          obtain ⟨x, y, hx, hy, rfl⟩ := (prepend_some _ _ _ _).mp h
          exact .plain c s x y e hc hx (ih _ (by simp) s y e hy rfl)
        · have hc : c = '\\' := Classical.not_not.mp hc
          subst hc
          cases s with
          | nil =>
            rw [parse_last] at h
            obtain ⟨x, y, hx, hy, rfl⟩ := (prepend_some _ _ _ _).mp h
            exact .other [] x y e (by simp) hx (ih _ (by simp) [] y e hy rfl)
          | cons d s' =>
            rw [parse_escape] at h
            split at h
            · rename_i k hk
              obtain ⟨x, y, hx, hy, rfl⟩ := (prepend_some _ _ _ _).mp h
              refine .control d k.toNat s' x y e (table_of_echoEscape d k hk) ?_
                (ih _ (by simp; omega) s' y e hy rfl)
              rw [Char.ofNat_toNat]; exact hx
            · rename_i hk
              split at h
              · rename_i hd
                subst hd
                cases h
                exact .stop s'
              · rename_i hdc
                split at h
                · rename_i hd
                  subst hd
                  obtain ⟨ds, rest, hs, hr⟩ := octal_exists s'
                  subst hs
                  rw [octal_three ds rest hr] at h
                  obtain ⟨x, y, hx, hy, rfl⟩ := (prepend_some _ _ _ _).mp h
                  cases hx
                  exact .octal ds rest y e hr (ih _ (by simp; omega) rest y e hy rfl)
                · rename_i hd0
                  obtain ⟨x, y, hx, hy, rfl⟩ := (prepend_some _ _ _ _).mp h
                  refine .other (d :: s') x y e ?_ hx (ih _ (by simp) (d :: s') y e hy rfl)
                  intro d' hd'
                  simp only [List.head?_cons, Option.mem_some_iff] at hd'
                  subst hd'
                  intro hm
                  simp only [List.mem_cons, List.not_mem_nil, or_false] at hm
                  rcases hm with t | t | t | t | t | t | t | t | t | t | t <;> subst t <;>
                    first
                      | exact hdc rfl
                      | exact hd0 rfl
                      | exact absurd hk (by decide)
  · intro h
    induction h with
    | nil => simp [echoParseEscape]
    | plain c s b out e hc hb _ ih =>
      rw [parse_plain enc c s hc, ih]
      simp [prepend, hb]
    | control l k s b out e hl hb _ ih =>
      rw [parse_escape, echoEscape_table l k hl]
      simp [prepend, hb, ih]
    | octal ds s out e hr _ ih =>
      rw [parse_escape, show echoEscape '0' = none from by decide]
      simp [octal_three ds s hr, ih, prepend, toChar]
    | stop s =>
      rw [parse_escape, show echoEscape 'c' = none from by decide]
      simp
    | other s b out e hs hb _ ih =>
      cases s with
      | nil =>
        rw [parse_last, ih]
        simp [prepend, hb]
      | cons d s' =>
        have hd := hs d (by simp)
        rw [parse_escape, noEscape d hd, ih]
        simp only
        rw [if_neg (by rintro rfl; simp at hd), if_neg (by rintro rfl; simp at hd)]
        simp [prepend, hb]

theorem wcscat_iff (enc : Char → Option (List Byte)) (s : List Char) (out : List Byte) :
    wcscat enc s = some out ↔ Literal enc s out := by
  constructor
  · intro h
    induction s generalizing out with
    | nil => simp [wcscat] at h; subst h; exact .nil
    | cons c s ih =>
      simp only [wcscat] at h
      split at h
      · rename_i b o hb ho
        cases h
        exact .cons c s b o hb (ih o ho)
      · cases h
  · intro h
    induction h with
    | nil => rfl
    | cons c s b out hb _ ih => simp [wcscat, hb, ih]

/-- A space ends every escape: two texts with a space between them are printed one after the
other. -/
theorem escaped_space {enc : Char → Option (List Byte)} {s : List Char} {o1 : List Byte}
    (h1 : Escaped enc s o1 false) {b : List Byte} (hb : enc ' ' = some b) {t : List Char}
    {o2 : List Byte} {e : Bool} (h2 : Escaped enc t o2 e) :
    Escaped enc (s ++ ' ' :: t) (o1 ++ (b ++ o2)) e := by
  generalize he : false = e' at h1
  induction h1 with
  | nil => exact .plain ' ' t b o2 e (by decide) hb h2
  | plain c s' x out e' hc hx _ ih =>
    rw [List.append_assoc]
    exact .plain c _ x _ e hc hx (ih he)
  | control l k s' x out e' hl hx _ ih =>
    rw [List.append_assoc]
    exact .control l k _ x _ e hl hx (ih he)
  | octal ds s' out e' hr _ ih =>
    have := Escaped.octal ds (s' ++ ' ' :: t) (out ++ (b ++ o2)) e ?_ (ih he)
    · simpa using this
    · refine ⟨hr.1, hr.2.1, ?_⟩
      intro hlt d hd
      cases s' with
      | nil =>
        simp at hd; subst hd; decide
      | cons c s' => exact hr.2.2 hlt d (by simpa using hd)
  | stop s' => cases he
  | other s' x out e' hs hx _ ih =>
    rw [List.append_assoc]
    refine .other _ x _ e ?_ hx (ih he)
    intro d hd
    cases s' with
    | nil => simp at hd; subst hd; decide
    | cons c s' => exact hs d (by simpa using hd)

/-- What is printed before a `\c` does not depend on what follows it. -/
theorem escaped_stop {enc : Char → Option (List Byte)} {s : List Char} {o1 : List Byte}
    (h1 : Escaped enc s o1 true) (t : List Char) : Escaped enc (s ++ ' ' :: t) o1 true := by
  generalize he : true = e' at h1
  induction h1 with
  | nil => cases he
  | plain c s' x out e' hc hx _ ih => exact .plain c _ x _ _ hc hx (ih he)
  | control l k s' x out e' hl hx _ ih => exact .control l k _ x _ _ hl hx (ih he)
  | octal ds s' out e' hr _ ih =>
    have := Escaped.octal ds (s' ++ ' ' :: t) out e' ?_ (ih he)
    · simpa using this
    · refine ⟨hr.1, hr.2.1, ?_⟩
      intro hlt d hd
      cases s' with
      | nil => simp at hd; subst hd; decide
      | cons c s' => exact hr.2.2 hlt d (by simpa using hd)
  | stop s' => exact .stop _
  | other s' x out e' hs hx _ ih =>
    refine .other _ x _ _ ?_ hx (ih he)
    intro d hd
    cases s' with
    | nil => simp at hd; subst hd; decide
    | cons c s' => exact hs d (by simpa using hd)

/-- Splitting a text that is printed at a space. -/
theorem escaped_split {enc : Char → Option (List Byte)} {s t : List Char} {out : List Byte}
    {e : Bool} (h : Escaped enc (s ++ ' ' :: t) out e) :
    (Escaped enc s out true ∧ e = true) ∨
      ∃ o1 b o2, Escaped enc s o1 false ∧ enc ' ' = some b ∧ Escaped enc t o2 e ∧
        out = o1 ++ (b ++ o2) := by
  generalize hw : s ++ ' ' :: t = w at h
  induction h generalizing s with
  | nil => simp at hw
  | plain c s' x out e hc hx h' ih =>
    cases s with
    | nil =>
      simp only [List.nil_append, List.cons.injEq] at hw
      obtain ⟨rfl, rfl⟩ := hw
      exact .inr ⟨[], x, out, .nil, hx, h', rfl⟩
    | cons c' s =>
      simp only [List.cons_append, List.cons.injEq] at hw
      obtain ⟨rfl, hw⟩ := hw
      rcases ih hw with ⟨h1, h2⟩ | ⟨o1, b, o2, h1, h2, h3, h4⟩
      · exact .inl ⟨.plain _ _ _ _ _ hc hx h1, h2⟩
      · exact .inr ⟨x ++ o1, b, o2, .plain _ _ _ _ _ hc hx h1, h2, h3, by simp [h4]⟩
  | control l k s' x out e hl hx h' ih =>
    rcases s with _ | ⟨c, _ | ⟨c', s⟩⟩
    · simp at hw
    ·
      simp only [List.cons_append, List.nil_append, List.cons.injEq] at hw
      obtain ⟨_, rfl, _⟩ := hw
      have := echoEscape_table _ _ hl
      simp [echoEscape] at this
    ·
      simp only [List.cons_append, List.cons.injEq] at hw
      obtain ⟨rfl, rfl, hw⟩ := hw
      rcases ih hw with ⟨h1, h2⟩ | ⟨o1, b, o2, h1, h2, h3, h4⟩
      · exact .inl ⟨.control _ _ _ _ _ _ hl hx h1, h2⟩
      · exact .inr ⟨x ++ o1, b, o2, .control _ _ _ _ _ _ hl hx h1, h2, h3, by simp [h4]⟩
  | octal ds s' out e hr h' ih =>
    rcases s with _ | ⟨c, _ | ⟨c', s⟩⟩
    · simp at hw
    ·
      simp only [List.cons_append, List.nil_append, List.cons.injEq] at hw
      exact absurd hw.2.1 (by decide)
    ·
      simp only [List.cons_append, List.cons.injEq] at hw
      obtain ⟨rfl, rfl, hw⟩ := hw
      -- the digits are at the beginning of `s`
      have key : ∃ s1, s = ds ++ s1 ∧ s1 ++ ' ' :: t = s' := by
        have hall := hr.1
        clear ih h' hr
        induction ds generalizing s with
        | nil => exact ⟨s, rfl, hw⟩
        | cons d ds ihd =>
          cases s with
          | nil =>
            simp only [List.nil_append, List.cons_append, List.cons.injEq] at hw
            exact absurd (hall d (by simp)) (by rw [← hw.1]; decide)
          | cons a s =>
            simp only [List.cons_append, List.cons.injEq] at hw
            obtain ⟨s1, h1, h2⟩ := ihd s hw.2 (fun x hx => hall x (by simp [hx]))
            exact ⟨s1, by simp [h1, hw.1], h2⟩
      obtain ⟨s1, rfl, hw'⟩ := key
      have hr1 : OctalRun ds s1 := by
        refine ⟨hr.1, hr.2.1, ?_⟩
        intro hlt d hd
        apply hr.2.2 hlt d
        rw [← hw']
        cases s1 with
        | nil => simp at hd
        | cons a s1 => simpa using hd
      rcases ih hw' with ⟨h1, h2⟩ | ⟨o1, b, o2, h1, h2, h3, h4⟩
      · exact .inl ⟨.octal ds s1 _ _ hr1 h1, h2⟩
      · exact .inr ⟨UInt8.ofNat (octalValue ds) :: o1, b, o2, .octal ds s1 _ _ hr1 h1, h2, h3,
          by simp [h4]⟩
  | stop s' =>
    rcases s with _ | ⟨c, _ | ⟨c', s⟩⟩
    · simp at hw
    ·
      simp only [List.cons_append, List.nil_append, List.cons.injEq] at hw
      exact absurd hw.2.1 (by decide)
    ·
      simp only [List.cons_append, List.cons.injEq] at hw
      obtain ⟨rfl, rfl, hw⟩ := hw
      exact .inl ⟨.stop s, rfl⟩
  | other s' x out e hs hx h' ih =>
    cases s with
    | nil => simp at hw
    | cons c' s =>
      simp only [List.cons_append, List.cons.injEq] at hw
      obtain ⟨rfl, hw⟩ := hw
      have hs1 : ∀ d ∈ s.head?, d ∉ ['a', 'b', 'c', 'e', 'f', 'n', 'r', 't', 'v', '\\', '0'] := by
        intro d hd
        apply hs d
        rw [← hw]
        cases s with
        | nil => simp at hd
        | cons a s => simpa using hd
      rcases ih hw with ⟨h1, h2⟩ | ⟨o1, b, o2, h1, h2, h3, h4⟩
      · exact .inl ⟨.other _ _ _ _ hs1 hx h1, h2⟩
      · exact .inr ⟨x ++ o1, b, o2, .other _ _ _ _ hs1 hx h1, h2, h3, by simp [h4]⟩

theorem literal_append {enc : Char → Option (List Byte)} {s t : List Char} {o1 o2 : List Byte}
    (h1 : Literal enc s o1) (h2 : Literal enc t o2) : Literal enc (s ++ t) (o1 ++ o2) := by
  induction h1 with
  | nil => exact h2
  | cons c s b out hb _ ih => rw [List.append_assoc]; exact .cons _ _ _ _ hb ih

theorem literal_split {enc : Char → Option (List Byte)} {s t : List Char} {out : List Byte}
    (h : Literal enc (s ++ t) out) :
    ∃ o1 o2, Literal enc s o1 ∧ Literal enc t o2 ∧ out = o1 ++ o2 := by
  induction s generalizing out with
  | nil => exact ⟨[], out, .nil, h, rfl⟩
  | cons c s ih =>
    cases h with
    | cons _ _ b o hb h' =>
      obtain ⟨o1, o2, h1, h2, h3⟩ := ih h'
      exact ⟨b ++ o1, o2, .cons _ _ _ _ hb h1, h2, by simp [h3]⟩

end Yash.Printf
