import Verif.Getopts.Spec
import Verif.Variable.Props
/-! # getopts: variables, numbers and option strings -/
set_option autoImplicit false

namespace Yash.Getopts

open Spec
open Yash.Variable (Name Word Shell step C25_assign_refused C27_assigned C27_no_abort C27_unset step_sane
  sane_iff visible_locate)
open Yash.Variable.Spec (varAt Visible Sane Target PlainAt)

/-! ### Variables -/

theorem set_ok (sh : Shell) (n : Name) (w : Word) (hs : Sane sh) (ho : Ordinary sh n) :
    ∃ sh', act sh (.set n w) = some (sh', true) ∧ Sane sh' ∧ Value sh' n w ∧ Ordinary sh' n ∧
      ∀ m d, m ≠ n → varAt sh' d m = varAt sh d m := by
  have hne : act sh (.set n w) ≠ none := by
    intro h
    rcases (C27_no_abort (fun _ => false) sh (.assign n (.scalar (some w)) .global false) hs).mp h with
      ⟨h, _⟩ | ⟨_, _, _, h, _⟩ <;> cases h
  cases hr : act sh (.set n w) with
  | none => exact absurd hr hne
  | some p =>
    obtain ⟨sh', b⟩ := p
    have hst : step (fun _ => false) sh (.assign n (.scalar (some w)) .global false) =
        some (sh', b) := hr
    have hb : b = true := by
      obtain ⟨d, _, h, _⟩ := C25_assign_refused _ sh sh' n _ .global false b hs (by decide) hst
      cases b with
      | true => rfl
      | false =>
        obtain ⟨v, hv, h1⟩ := h.mp rfl
        rw [(ho d v hv).1] at h1
        cases h1
    subst hb
    obtain ⟨d, v, ht, hc, hvis, hval, hro, hnd, _⟩ := C27_assigned _ sh sh' n _ .global false hs hst
    refine ⟨sh', rfl, ?_, ⟨d, v, hvis, hval⟩, ?_, fun m e hm => hc.2.2.1 m e hm⟩
    · exact (sane_iff _).mpr (step_sane _ _ _ _ _ ((sane_iff _).mp hs) hst)
    · have huniq : ∀ e u, varAt sh' e n = some u → e = d := by
        intro e u hu
        rcases Nat.lt_trichotomy e d with hlt | heq | hgt
        · rw [hc.2.2.2 e hlt] at hu
          rcases ht with ⟨_, h2, _⟩ | ⟨h2, _⟩
          · cases hd : varAt sh d n with
            | none => exact absurd hd h2
            | some v' => exact (ho d v' hd).2.2 e u hu
          · omega
        · exact heq
        · rw [hvis.2 e hgt] at hu
          cases hu
      intro e u hu
      have := huniq e u hu
      subst this
      have : u = v := by
        have := hvis.1
        rw [hu] at this
        exact Option.some.inj this
      subst this
      refine ⟨hro, ?_, fun e' u' hu' => huniq e' u' hu'⟩
      cases hnd' : u.nodelete with
      | false => rfl
      | true =>
        obtain ⟨u', h1, h2⟩ := hnd.mp hnd'
        rw [(ho e u' h1).2.1] at h2
        cases h2

theorem unset_ok (sh : Shell) (n : Name) (hs : Sane sh) (ho : Ordinary sh n) :
    ∃ sh', act sh (.unset n) = some (sh', true) ∧ Sane sh' ∧ Absent sh' n ∧
      ∀ m d, m ≠ n → varAt sh' d m = varAt sh d m := by
  have hne : act sh (.unset n) ≠ none := by
    intro h
    rcases (C27_no_abort (fun _ => false) sh (.unset n) hs).mp h with
      ⟨h, _⟩ | ⟨_, _, _, h, _⟩ <;> cases h
  cases hr : act sh (.unset n) with
  | none => exact absurd hr hne
  | some p =>
    obtain ⟨sh', b⟩ := p
    have hst : step (fun _ => false) sh (.unset n) = some (sh', b) := hr
    obtain ⟨h1, h2, _, h4⟩ := C27_unset _ sh sh' n b hst
    have hb : b = true := by
      cases b with
      | true => rfl
      | false =>
        obtain ⟨d, v, hv, h1⟩ := h2.mp rfl
        rw [(ho d v hv.1).2.1] at h1
        cases h1
    subst hb
    refine ⟨sh', rfl, ?_, ?_, fun m e hm => h1 m e hm⟩
    · exact (sane_iff _).mpr (step_sane _ _ _ _ _ ((sane_iff _).mp hs) hst)
    · cases hl : Yash.Variable.locate sh.scopes n with
      | none =>
        simp only [step, Variable.unsetVariable, hl, Option.some.injEq, Prod.mk.injEq, and_true] at hst
        subst hst
        intro d
        cases hv : varAt sh d n with
        | none => rfl
        | some v =>
          have hvis : Visible sh n d v := ⟨hv, fun e he => by
            cases hu : varAt sh e n with
            | none => rfl
            | some u =>
              have := (ho d v hv).2.2 e u hu
              omega⟩
          rw [(visible_locate sh n d v hvis).2] at hl
          cases hl
      | some q =>
        obtain ⟨i, v⟩ := q
        obtain ⟨_, hvis⟩ := Yash.Variable.locate_visible sh n i v hl
        obtain ⟨h5, h6⟩ := h4 rfl _ v hvis
        intro d
        by_cases hd : d = sh.scopes.length - 1 - i
        · rw [hd]; exact h5
        · rw [h6 d hd]
          cases hu : varAt sh d n with
          | none => rfl
          | some u => exact absurd ((ho _ v hvis.1).2.2 d u hu) hd

theorem Spec.Value.congr {sh sh' : Shell} {n : Name} {w : Word} (h : ∀ d, varAt sh' d n = varAt sh d n)
    (hv : Value sh n w) : Value sh' n w := by
  obtain ⟨d, v, ⟨h1, h2⟩, h3⟩ := hv
  exact ⟨d, v, ⟨by rw [h]; exact h1, fun e he => by rw [h]; exact h2 e he⟩, h3⟩

theorem Spec.Absent.congr {sh sh' : Shell} {n : Name} (h : ∀ d, varAt sh' d n = varAt sh d n)
    (hv : Absent sh n) : Absent sh' n := fun d => by rw [h]; exact hv d

theorem Spec.Ordinary.congr {sh sh' : Shell} {n : Name} (h : ∀ d, varAt sh' d n = varAt sh d n)
    (hv : Ordinary sh n) : Ordinary sh' n := by
  intro d v hd
  rw [h] at hd
  obtain ⟨h1, h2, h3⟩ := hv d v hd
  exact ⟨h1, h2, fun e u he => h3 e u (by rw [← h]; exact he)⟩

theorem Spec.Absent.ordinary {sh : Shell} {n : Name} (h : Absent sh n) : Ordinary sh n := by
  intro d v hd
  rw [h d] at hd
  cases hd

theorem Spec.Value.getScalar {sh : Shell} {n : Name} {w : Word} (h : Value sh n w) :
    getScalar sh n = some w := by
  obtain ⟨d, v, hv, h1⟩ := h
  simp only [Getopts.getScalar, (visible_locate sh n d v hv).2, h1]

/-! ### Numbers -/

theorem digitChar_range (d : Nat) (h : d < 10) :
    ('0' ≤ Nat.digitChar d ∧ Nat.digitChar d ≤ '9') ∧ (Nat.digitChar d).toNat - 48 = d := by
  have : ∀ d : Fin 10, ('0' ≤ Nat.digitChar d.val ∧ Nat.digitChar d.val ≤ '9') ∧
      (Nat.digitChar d.val).toNat - 48 = d.val := by decide
  exact this ⟨d, h⟩

theorem scanDigits_append (rest : List Char) (hr : ∀ c, rest.head? = some c → ¬ ('0' ≤ c ∧ c ≤ '9'))
    (ds : List Char) : ∀ acc, (∀ c ∈ ds, '0' ≤ c ∧ c ≤ '9') →
      scanDigits (ds ++ rest) acc = (ds.foldl (fun n c => n * 10 + (c.toNat - 48)) acc, rest) := by
  induction ds with
  | nil =>
    intro acc _
    cases rest with
    | nil => rfl
    | cons c rest => rw [List.nil_append, scanDigits, if_neg (hr c rfl)]; rfl
  | cons c ds ih =>
    intro acc h
    rw [List.cons_append, scanDigits, if_pos (h c (by simp)), ih _ fun x hx => h x (by simp [hx])]
    rfl

theorem toDigits_scan (n : Nat) :
    (∀ c ∈ Nat.toDigits 10 n, '0' ≤ c ∧ c ≤ '9') ∧
      (Nat.toDigits 10 n).foldl (fun n c => n * 10 + (c.toNat - 48)) 0 = n ∧
      Nat.toDigits 10 n ≠ [] := by
  induction n using Nat.strongRecOn with
  | ind n ih =>
    by_cases h : n < 10
    · rw [Nat.toDigits_of_lt_base h]
      obtain ⟨h1, h2⟩ := digitChar_range n h
      refine ⟨?_, ?_, by simp⟩
      · intro c hc
        simp only [List.mem_singleton] at hc
        rw [hc]; exact h1
      · simp only [List.foldl_cons, List.foldl_nil]
        omega
    · rw [Nat.toDigits_of_base_le (by omega) (by omega)]
      obtain ⟨h1, h2, _⟩ := ih (n / 10) (by omega)
      obtain ⟨h3, h4⟩ := digitChar_range (n % 10) (by omega)
      refine ⟨?_, ?_, by simp⟩
      · intro c hc
        rw [List.mem_append, List.mem_singleton] at hc
        rcases hc with hc | rfl
        · exact h1 c hc
        · exact h3
      · rw [List.foldl_append, h2]
        simp only [List.foldl_cons, List.foldl_nil]
        omega

theorem wcstoul_digits (isSpace : Char → Bool)
    (hsp : ∀ c, '0' ≤ c → c ≤ '9' → isSpace c = false) (n : Nat) (hn : n < ulongs)
    (rest : List Char) (hr : ∀ c, rest.head? = some c → ¬ ('0' ≤ c ∧ c ≤ '9')) :
    wcstoul isSpace (Nat.toDigits 10 n ++ rest) = some (n, rest) := by
  obtain ⟨h1, h2, h3⟩ := toDigits_scan n
  generalize hd : Nat.toDigits 10 n = ds at *
  cases ds with
  | nil => exact absurd rfl h3
  | cons c ds =>
    have hc := h1 c (by simp)
    have h4 := scanDigits_append rest hr (c :: ds) 0 h1
    rw [h2] at h4
    have h5 : (c :: ds ++ rest).dropWhile isSpace = c :: ds ++ rest := by
      rw [List.cons_append, List.dropWhile_cons, hsp c hc.1 hc.2]
      simp
    have h6 : wcstoulDigits false (c :: ds ++ rest) = some (n, rest) := by
      simp only [wcstoulDigits, List.cons_append] at h4 ⊢
      rw [if_pos hc, h4]
      simp only [Bool.false_eq_true, if_false]
      rw [if_neg (by omega)]
    unfold wcstoul
    rw [h5, ← h6]
    split
    · rename_i heq
      rw [List.cons_append] at heq
      cases heq
      exact absurd hc (by decide)
    · rename_i heq
      rw [List.cons_append] at heq
      cases heq
      exact absurd hc (by decide)
    · rfl

/-- What is written to `OPTIND` is read back by the next call. -/
theorem parse_text (isSpace : Char → Bool) (hsp : ∀ c, '0' ≤ c → c ≤ '9' → isSpace c = false)
    (i s : Nat) (hi : i + 1 < ulongs) (hs : s < ulongs) :
    parseOptind isSpace (optindText i s) = some (i, if 1 < s then s else 1) := by
  unfold parseOptind optindText
  rw [Nat.mod_eq_of_lt hi]
  have hmod : (i + 1 + ulongs - 1) % ulongs = i := by
    rw [show i + 1 + ulongs - 1 = i + ulongs from by omega, Nat.add_mod_right, Nat.mod_eq_of_lt]
    omega
  by_cases h : 1 < s
  · rw [if_pos h, if_pos h, wcstoul_digits isSpace hsp (i + 1) hi _ (by
      intro c hc
      simp only [List.head?_cons, Option.some.injEq] at hc
      subst hc
      decide)]
    simp only []
    have := wcstoul_digits isSpace hsp s hs [] (by simp)
    rw [List.append_nil] at this
    rw [this, hmod]
    simp only []
    rw [if_neg (by omega)]
  · rw [if_neg h, if_neg h, wcstoul_digits isSpace hsp (i + 1) hi [] (by simp)]
    simp only [hmod]

/-! ### Option strings -/

theorem afterChar_entries (c : Char) (opts : Options) (hv : ∀ o ∈ opts, o.1 ≠ ':') (hc : c ≠ ':')
    (s : List Char)
    (hs : s = opts.flatMap fun o => if o.2 then [o.1, ':'] else [o.1]) :
    (afterChar c s = none ∧ Unknown opts c) ∨
    (∃ s', afterChar c s = some (':' :: s') ∧ Known opts c true) ∨
    (∃ s', afterChar c s = some s' ∧ s'.head? ≠ some ':' ∧ Known opts c false) := by
  induction opts generalizing s with
  | nil => left; subst hs; exact ⟨rfl, fun b h => (by cases h)⟩
  | cons o opts ih =>
    obtain ⟨d, b⟩ := o
    have ih := ih (fun o h => hv o (by simp [h])) _ rfl
    have hhead : ∀ x, (opts.flatMap fun o => if o.2 then [o.1, ':'] else [o.1]).head? = some x →
        x ≠ ':' := by
      intro x hx
      cases opts with
      | nil => cases hx
      | cons o' opts' =>
        have := hv o' (by simp)
        rw [List.flatMap_cons] at hx
        split at hx
        · simp only [List.cons_append, List.head?_cons, Option.some.injEq] at hx
          rw [← hx]; exact this
        · simp only [List.cons_append, List.head?_cons, Option.some.injEq] at hx
          rw [← hx]; exact this
    rw [List.flatMap_cons] at hs
    by_cases hdc : d = c
    · subst hdc
      cases b with
      | true =>
        right; left
        subst hs
        exact ⟨opts.flatMap fun o => if o.2 then [o.1, ':'] else [o.1], by simp [afterChar], [], opts,
          rfl, fun b h => (by cases h)⟩
      | false =>
        right; right
        subst hs
        refine ⟨opts.flatMap fun o => if o.2 then [o.1, ':'] else [o.1], by simp [afterChar], ?_, [],
          opts, rfl, fun b h => (by cases h)⟩
        intro hx
        exact hhead ':' hx rfl
    · have ha : afterChar c s =
          afterChar c (opts.flatMap fun o => if o.2 then [o.1, ':'] else [o.1]) := by
        subst hs
        cases b with
        | true =>
          simp only [if_true, List.cons_append, List.nil_append, afterChar]
          rw [if_neg hdc, if_neg (fun h => hc h.symm)]
        | false =>
          simp only [Bool.false_eq_true, if_false, List.cons_append, List.nil_append, afterChar]
          rw [if_neg hdc]
      rw [ha]
      have known : ∀ b', Known opts c b' → Known ((d, b) :: opts) c b' := by
        rintro b' ⟨l, r, h1, h2⟩
        refine ⟨(d, b) :: l, r, by rw [h1]; rfl, fun b'' h => ?_⟩
        rw [List.mem_cons] at h
        rcases h with h | h
        · cases h; exact hdc rfl
        · exact h2 b'' h
      rcases ih with ⟨h1, h2⟩ | ⟨s', h1, h2⟩ | ⟨s', h1, h2, h3⟩
      · left
        refine ⟨h1, fun b' h => ?_⟩
        rw [List.mem_cons] at h
        rcases h with h | h
        · cases h; exact hdc rfl
        · exact h2 b' h
      · right; left; exact ⟨s', h1, known _ h2⟩
      · right; right; exact ⟨s', h1, h2, known _ h3⟩

/-- How the option string decides about an option character. -/
theorem afterChar_written (c : Char) (silent : Bool) (opts : Options) (hv : ∀ o ∈ opts, o.1 ≠ ':')
    (hc : c ≠ ':') (s : List Char) (hs : Written silent opts s) :
    (afterChar c s = none ∧ Unknown opts c) ∨
    (∃ s', afterChar c s = some (':' :: s') ∧ Known opts c true) ∨
    (∃ s', afterChar c s = some s' ∧ s'.head? ≠ some ':' ∧ Known opts c false) := by
  have := afterChar_entries c opts hv hc _ rfl
  cases silent with
  | false =>
    rw [Written] at hs
    subst hs
    simpa using this
  | true =>
    rw [Written] at hs
    subst hs
    simp only [if_true, List.cons_append, List.nil_append]
    rw [afterChar, if_neg (fun h => hc h.symm)]
    exact this

end Yash.Getopts
