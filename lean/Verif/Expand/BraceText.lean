import Verif.Expand.BraceSeq
/-! # Parsing of numeric brace sequences agrees with the specification -/
set_option autoImplicit false
set_option linter.unusedSimpArgs false

namespace Yash.Expand

open Spec

abbrev isDigit (c : Char) : Bool := (digitVal c).isSome

theorem decimal_aux (ds : List Char) (a : Nat) :
    ds.foldlM (m := Option) (fun a c => if '0' ≤ c ∧ c ≤ '9' then some (10 * a + (c.toNat - 48)) else none) a =
      if ds.all isDigit then some (ds.foldl (fun a c => 10 * a + (digitVal c).getD 0) a) else none := by
  induction ds generalizing a with
  | nil => simp
  | cons c ds ih =>
    simp only [List.foldlM_cons, List.all_cons, List.foldl_cons]
    by_cases h : '0' ≤ c ∧ c ≤ '9'
    · have hd : digitVal c = some (c.toNat - 48) := by simp [digitVal, h]
      rw [if_pos h]
      simp only [Option.bind_eq_bind, Option.bind_some]
      rw [ih]
      simp [isDigit, hd]
    · have hd : digitVal c = none := by simp [digitVal, h]
      rw [if_neg h]
      simp [isDigit, hd]

theorem decimal_eq (ds : List Char) :
    decimal ds = if ds ≠ [] ∧ ds.all isDigit then some (digitsVal ds) else none := by
  cases ds with
  | nil => simp [decimal]
  | cons c ds =>
    simp only [decimal, ne_eq, reduceCtorEq, not_false_eq_true, true_and]
    exact decimal_aux (c :: ds) 0

theorem not_digit_sign {c : Char} (h : isDigit c = true) : c ≠ '+' ∧ c ≠ '-' ∧ c ≠ '.' ∧ c ≠ '}' ∧ c ≠ '{' := by
  refine ⟨?_, ?_, ?_, ?_, ?_⟩ <;> rintro rfl <;> revert h <;> decide

/-- Sign prefix of a numeral. -/
inductive SignPart : List Char → Bool → Prop
  | plus : SignPart ['+'] false
  | minus : SignPart ['-'] true
  | none : SignPart [] false

/-- The anatomy of a numeral. -/
structure NumParts (space : Char → Bool) (p : List Char) (v : Int) where
  sp : List Char
  sg : List Char
  ds : List Char
  neg : Bool
  eq : p = sp ++ (sg ++ ds)
  hsp : ∀ c ∈ sp, space c = true
  hsg : SignPart sg neg
  hne : ds ≠ []
  hds : ds.all isDigit = true
  hv : v = if neg then - (digitsVal ds : Int) else digitsVal ds
  hhd : (sg ++ ds).head?.all (fun c => !space c) = true

theorem head_not_space {space : Char → Bool} (s : List Char) :
    (s.dropWhile space).head?.all (fun c => !space c) = true := by
  have := List.head?_dropWhile_not space s
  cases h : (s.dropWhile space).head? with
  | none => rfl
  | some c => rw [h] at this; simpa using this

theorem numeral_parts {space : Char → Bool} {p : List Char} {v : Int}
    (h : numeral space p = some v) : Nonempty (NumParts space p v) := by
  have hp : p = p.takeWhile space ++ p.dropWhile space := List.takeWhile_append_dropWhile.symm
  have hh := head_not_space (space := space) p
  simp only [numeral] at h
  split at h
  · rename_i ds heq
    rw [decimal_eq, Option.map_eq_some_iff] at h
    obtain ⟨n, h1, h2⟩ := h
    split at h1
    · rename_i hd
      cases h1
      exact ⟨⟨p.takeWhile space, ['+'], ds, false, by rw [heq] at hp; simpa using hp,
        fun c hc => Util.of_mem_takeWhile hc, .plus, hd.1, hd.2, by simpa using h2.symm,
        by rw [heq] at hh; simpa using hh⟩⟩
    · cases h1
  · rename_i ds heq
    rw [decimal_eq, Option.map_eq_some_iff] at h
    obtain ⟨n, h1, h2⟩ := h
    split at h1
    · rename_i hd
      cases h1
      exact ⟨⟨p.takeWhile space, ['-'], ds, true, by rw [heq] at hp; simpa using hp,
        fun c hc => Util.of_mem_takeWhile hc, .minus, hd.1, hd.2, by simpa using h2.symm,
        by rw [heq] at hh; simpa using hh⟩⟩
    · cases h1
  · rename_i ds h1 h2
    rw [decimal_eq, Option.map_eq_some_iff] at h
    obtain ⟨n, h3, h4⟩ := h
    split at h3
    · rename_i hd
      cases h3
      exact ⟨⟨p.takeWhile space, [], p.dropWhile space, false, by simpa using hp,
        fun c hc => Util.of_mem_takeWhile hc, .none, hd.1, hd.2, by simpa using h4.symm,
        by simpa using hh⟩⟩
    · cases h3

theorem dropWhile_space_append {space : Char → Bool} {sp r : List Char}
    (hsp : ∀ c ∈ sp, space c = true) (hr : r.head?.all (fun c => !space c) = true) :
    (sp ++ r).dropWhile space = r ∧ (sp ++ r).takeWhile space = sp := by
  induction sp with
  | nil =>
    cases r with
    | nil => simp
    | cons c r =>
      simp only [List.head?_cons, Option.all_some, Bool.not_eq_true'] at hr
      simp [hr]
  | cons c sp ih =>
    have := hsp c (by simp)
    have ih := ih (fun x hx => hsp x (by simp [hx]))
    simp [List.dropWhile_cons, List.takeWhile_cons, this, ih]

/-- `q` does not start with a digit. -/
def NoDigit (q : List Char) : Prop := ∀ c, q.head? = some c → isDigit c = false

theorem takeWhile_digits {ds q : List Char} (hd : ds.all isDigit = true) (hq : NoDigit q) :
    (ds ++ q).takeWhile isDigit = ds := by
  induction ds with
  | nil =>
    cases q with
    | nil => rfl
    | cons c q => simp [hq c rfl]
  | cons c ds ih =>
    simp only [List.all_cons, Bool.and_eq_true] at hd
    simp only [List.cons_append, List.takeWhile_cons, hd.1, if_true, ih hd.2]

theorem wcstol_of_parts {space : Char → Bool} (R : LongRange) {p : List Char} {v : Int}
    (P : NumParts space p v) {q : List Char} (hq : NoDigit q) :
    wcstol space R (p ++ q) = (v, p.length, decide (¬ (R.lmin ≤ v ∧ v ≤ R.lmax))) ∧ p ≠ [] ∧
    hasLeadingZero space (p ++ q) = (zeroPadded space p, hasPlus space p) ∧
    numeral space p = some v ∧
    ∀ c ∈ p, space c = true ∨ c = '+' ∨ c = '-' ∨ isDigit c = true := by
  obtain ⟨sp, sg, ds, neg, rfl, hsp, hsg, hne, hds, hv, hhd⟩ := P
  obtain ⟨d, ds', rfl⟩ := List.exists_cons_of_ne_nil hne
  have hd0 : isDigit d = true := by simp [List.all_cons] at hds; exact hds.1
  have hns := not_digit_sign hd0
  have e1 : sp ++ (sg ++ (d :: ds')) ++ q = sp ++ (sg ++ ((d :: ds') ++ q)) := by simp
  have hhd' : (sg ++ ((d :: ds') ++ q)).head?.all (fun c => !space c) = true := by
    cases hsg <;> simpa using hhd
  obtain ⟨h1, h2⟩ := dropWhile_space_append hsp hhd
  obtain ⟨h3, h4⟩ := dropWhile_space_append hsp hhd'
  have ht := takeWhile_digits hds hq
  have hdec : decimal (d :: ds') = some (digitsVal (d :: ds')) := by
    rw [decimal_eq, if_pos ⟨hne, hds⟩]
  refine ⟨?_, by simp, ?_, ?_, ?_⟩
  · rw [e1]
    simp only [wcstol, h3, h4]
    cases hsg
    · simp only [List.cons_append, List.nil_append] at *
      simp only [ht]
      simp [hv]
      omega
    · simp only [List.cons_append, List.nil_append] at *
      simp only [ht]
      simp [hv]
      omega
    · simp only [List.cons_append, List.nil_append] at *
      split
      · rename_i heq; cases heq; exact absurd rfl hns.1
      · rename_i heq; cases heq; exact absurd rfl hns.2.1
      · simp only [ht]
        simp [hv]
  · rw [e1]
    simp only [hasLeadingZero, zeroPadded, hasPlus, h1, h3]
    cases hsg
    · simp
    · simp
    · simp only [List.cons_append, List.nil_append] at *
      split
      · rename_i heq; cases heq; exact absurd rfl hns.1
      · rename_i heq; cases heq; exact absurd rfl hns.2.1
      · split
        · rename_i heq; cases heq; exact absurd rfl hns.1
        · rename_i heq; cases heq; exact absurd rfl hns.2.1
        · simp [hns.1]
  · simp only [numeral, h1]
    cases hsg
    · simp [hdec, hv]
    · simp [hdec, hv]
    · simp only [List.nil_append]
      split
      · rename_i heq; cases heq; exact absurd rfl hns.1
      · rename_i heq; cases heq; exact absurd rfl hns.2.1
      · simp [hdec, hv]
  · intro c hc
    rcases List.mem_append.1 hc with hc | hc
    · exact Or.inl (hsp c hc)
    · rcases List.mem_append.1 hc with hc | hc
      · cases hsg <;> simp at hc <;> simp [hc]
      · exact Or.inr (Or.inr (Or.inr (List.all_eq_true.1 hds c hc)))

theorem wcstol_parts {space : Char → Bool} {R : LongRange} {s : List Char} {v : Int} {n : Nat}
    {e : Bool} (h : wcstol space R s = (v, n, e)) (hn : n ≠ 0) :
    ∃ p q, s = p ++ q ∧ p.length = n ∧ NoDigit q ∧ Nonempty (NumParts space p v) := by
  have hs : s = s.takeWhile space ++ s.dropWhile space := List.takeWhile_append_dropWhile.symm
  have hh := head_not_space (space := space) s
  have key : ∀ (neg : Bool) (sg r : List Char), SignPart sg neg → s.dropWhile space = sg ++ r →
      (if r.takeWhile isDigit = [] then (0, 0, false)
       else ((if neg then - (digitsVal (r.takeWhile isDigit) : Int) else digitsVal (r.takeWhile isDigit)),
        (s.takeWhile space).length + sg.length + (r.takeWhile isDigit).length,
        decide (¬ (R.lmin ≤ (if neg then - (digitsVal (r.takeWhile isDigit) : Int) else digitsVal (r.takeWhile isDigit)) ∧
          (if neg then - (digitsVal (r.takeWhile isDigit) : Int) else digitsVal (r.takeWhile isDigit)) ≤ R.lmax)))) = (v, n, e) →
      ∃ p q, s = p ++ q ∧ p.length = n ∧ NoDigit q ∧ Nonempty (NumParts space p v) := by
    intro neg sg r hsg hr hw
    split at hw
    · simp only [Prod.mk.injEq] at hw; exact absurd hw.2.1.symm hn
    · rename_i hne
      simp only [Prod.mk.injEq] at hw
      obtain ⟨h1, h2, _⟩ := hw
      refine ⟨s.takeWhile space ++ (sg ++ r.takeWhile isDigit), r.dropWhile isDigit, ?_, ?_, ?_, ?_⟩
      · conv => lhs; rw [hs, hr]
        conv => lhs; rw [← List.takeWhile_append_dropWhile (p := isDigit) (l := r)]
        simp
      · simp only [List.length_append]; omega
      · intro c hc
        have := List.head?_dropWhile_not isDigit r
        rw [hc] at this
        simpa using this
      · refine ⟨⟨s.takeWhile space, sg, r.takeWhile isDigit, neg, rfl,
          fun c hc => Util.of_mem_takeWhile hc, hsg, hne, ?_, h1.symm, ?_⟩⟩
        · rw [List.all_eq_true]; exact fun c hc => Util.of_mem_takeWhile hc
        · rw [hr] at hh
          cases hsg
          · simpa using hh
          · simpa using hh
          · cases r with
            | nil => rfl
            | cons c r =>
              by_cases hc : isDigit c = true
              · simp only [List.nil_append, List.takeWhile_cons, hc, if_true]
                simpa using hh
              · simp only [List.nil_append, List.takeWhile_cons, hc]
                rfl
  simp only [wcstol] at h
  split at h
  · rename_i r heq
    exact key false ['+'] _ .plus heq h
  · rename_i r heq
    exact key true ['-'] _ .minus heq h
  · exact key false [] _ .none (by simp) h

theorem splitDots_noDot {a : List Char} (ha : '.' ∉ a) : splitDots a = [a] := by
  induction a with
  | nil => rfl
  | cons c a ih =>
    simp only [List.mem_cons, not_or] at ha
    have ih := ih ha.2
    rw [splitDots.eq_def]
    split
    · rename_i heq; cases heq
    · rename_i heq; cases heq; simp at ha
    · rename_i heq; cases heq; simp [ih]

theorem splitDots_append {a b : List Char} (ha : '.' ∉ a) :
    splitDots (a ++ '.' :: '.' :: b) = a :: splitDots b := by
  induction a with
  | nil => rfl
  | cons c a ih =>
    simp only [List.mem_cons, not_or] at ha
    have ih := ih ha.2
    rw [splitDots.eq_def]
    split
    · rename_i heq; cases heq
    · rename_i heq; simp only [List.cons_append, List.cons.injEq] at heq; exact absurd heq.1.symm ha.1
    · rename_i heq
      simp only [List.cons_append, List.cons.injEq] at heq
      rw [← heq.2, ih, heq.1]

theorem splitDots_cons {s x y : List Char} {ys : List (List Char)}
    (h : splitDots s = x :: y :: ys) :
    ∃ t, s = x ++ '.' :: '.' :: t ∧ splitDots t = y :: ys := by
  induction s using splitDots.induct generalizing x with
  | case1 => simp [splitDots] at h
  | case2 s ih =>
    rw [splitDots] at h
    simp only [List.cons.injEq] at h
    exact ⟨s, by rw [← h.1]; rfl, h.2⟩
  | case3 c s hne h1 ih => rw [splitDots.eq_3 _ _ hne, h1] at h; simp at h
  | case4 c s hne x' xs h1 ih =>
    rw [splitDots.eq_3 _ _ hne, h1] at h
    simp only [List.cons.injEq] at h
    obtain ⟨rfl, rfl⟩ := h
    obtain ⟨t, h2, h3⟩ := ih h1
    exact ⟨t, by rw [h2]; rfl, h3⟩

theorem splitDots_single {s x : List Char} (h : splitDots s = [x]) : s = x := by
  induction s using splitDots.induct generalizing x with
  | case1 => simp [splitDots] at h; exact h.symm
  | case2 s ih =>
    rw [splitDots] at h
    simp only [List.cons.injEq] at h
    have : ∀ s, splitDots s ≠ [] := by
      intro s
      induction s using splitDots.induct with
      | case1 => simp [splitDots]
      | case2 => simp [splitDots]
      | case3 c s hne h1 ih => exact absurd h1 ih
      | case4 c s hne x' xs h1 ih => rw [splitDots.eq_3 _ _ hne, h1]; simp
    exact absurd h.2 (this s)
  | case3 c s hne h1 ih =>
    rw [splitDots.eq_3 _ _ hne, h1] at h
    exfalso
    have : ∀ s, splitDots s ≠ [] := by
      intro s
      induction s using splitDots.induct with
      | case1 => simp [splitDots]
      | case2 => simp [splitDots]
      | case3 c s hne h1 ih => exact absurd h1 ih
      | case4 c s hne x' xs h1 ih => rw [splitDots.eq_3 _ _ hne, h1]; simp
    exact this s h1
  | case4 c s hne x' xs h1 ih =>
    rw [splitDots.eq_3 _ _ hne, h1] at h
    simp only [List.cons.injEq] at h
    obtain ⟨rfl, rfl⟩ := h
    rw [ih h1]

theorem noDigit_dot (q : List Char) : NoDigit ('.' :: q) := by
  intro c h; cases h; decide

theorem noDigit_close (q : List Char) : NoDigit ('}' :: q) := by
  intro c h; cases h; decide

theorem seqText_of {L : Locale} {R : LongRange} {body : List Char} {q : Sequence}
    (h : sequence? L.space R.lmin R.lmax body = some q) (tail : List Char) :
    seqText L R (body ++ '}' :: tail) =
      some ⟨q.start, q.stop, q.step, q.plus, q.width, body.length⟩ := by
  simp only [sequence?] at h
  split at h
  · rename_i a b hsp
    obtain ⟨t, rfl, ht⟩ := splitDots_cons hsp
    have := splitDots_single ht
    subst this
    split at h
    · rename_i x y hx hy
      split at h
      · rename_i hr
        cases h
        obtain ⟨Px⟩ := numeral_parts hx
        obtain ⟨Py⟩ := numeral_parts hy
        obtain ⟨a1, a2, a3, _⟩ := wcstol_of_parts R Px (noDigit_dot ('.' :: (t ++ '}' :: tail)))
        obtain ⟨b1, b2, b3, _⟩ := wcstol_of_parts R Py (noDigit_close tail)
        have e : a ++ '.' :: '.' :: t ++ '}' :: tail = a ++ '.' :: '.' :: (t ++ '}' :: tail) := by
          simp
        rw [e]
        simp only [seqText, a1, a3, List.drop_left, b1, b3]
        simp [hr, a2, b2]
        omega
      · cases h
    · cases h
  · rename_i a b c hsp
    obtain ⟨t, rfl, ht⟩ := splitDots_cons hsp
    obtain ⟨t', rfl, ht'⟩ := splitDots_cons ht
    have := splitDots_single ht'
    subst this
    split at h
    · rename_i x y d hx hy hd
      split at h
      · rename_i hr
        cases h
        obtain ⟨Px⟩ := numeral_parts hx
        obtain ⟨Py⟩ := numeral_parts hy
        obtain ⟨Pd⟩ := numeral_parts hd
        obtain ⟨a1, a2, a3, _⟩ := wcstol_of_parts R Px
          (noDigit_dot ('.' :: (b ++ '.' :: '.' :: (t' ++ '}' :: tail))))
        obtain ⟨b1, b2, b3, _⟩ := wcstol_of_parts R Py (noDigit_dot ('.' :: (t' ++ '}' :: tail)))
        obtain ⟨c1, c2, c3, _⟩ := wcstol_of_parts R Pd (noDigit_close tail)
        have e : a ++ '.' :: '.' :: (b ++ '.' :: '.' :: t') ++ '}' :: tail =
            a ++ '.' :: '.' :: (b ++ '.' :: '.' :: (t' ++ '}' :: tail)) := by
          simp
        rw [e]
        simp only [seqText, a1, a3, List.drop_left, b1, b3, c1]
        simp [hr, a2, b2, c2]
        omega
      · cases h
    · cases h
  · cases h

theorem noDot_of_parts {L : Locale} (hL : L.Ok) {p : List Char}
    (h : ∀ c ∈ p, L.space c = true ∨ c = '+' ∨ c = '-' ∨ isDigit c = true) :
    '.' ∉ p ∧ '{' ∉ p ∧ '}' ∉ p := by
  have hs := hL.punct_space
  refine ⟨fun hc => ?_, fun hc => ?_, fun hc => ?_⟩
  · rcases h _ hc with h | h | h | h
    · rw [hs '.' (by decide)] at h; cases h
    · revert h; decide
    · revert h; decide
    · revert h; decide
  · rcases h _ hc with h | h | h | h
    · rw [hs '{' (by decide)] at h; cases h
    · revert h; decide
    · revert h; decide
    · revert h; decide
  · rcases h _ hc with h | h | h | h
    · rw [hs '}' (by decide)] at h; cases h
    · revert h; decide
    · revert h; decide
    · revert h; decide

theorem seqText_some {L : Locale} (hL : L.Ok) {R : LongRange} {txt : List Char} {r : SeqParse}
    (h : seqText L R txt = some r) :
    ∃ body tail, txt = body ++ '}' :: tail ∧ body.length = r.bracei ∧
      '{' ∉ body ∧ '}' ∉ body ∧
      sequence? L.space R.lmin R.lmax body = some ⟨r.start, r.stop, r.delta, r.sign, r.len⟩ := by
  simp only [seqText] at h
  split at h
  · cases h
  · rename_i hn1
    simp only [not_or] at hn1
    obtain ⟨p1, q1, e1, l1, d1, ⟨P1⟩⟩ := wcstol_parts (R := R) (s := txt)
              (v := (wcstol L.space R txt).1) (n := (wcstol L.space R txt).2.1)
              (e := (wcstol L.space R txt).2.2) rfl hn1.1
    obtain ⟨a1, a2, a3, a4, a5⟩ := wcstol_of_parts R P1 d1
    rw [← e1] at a1 a3
    rw [← l1] at h
    have hq1 : txt.drop p1.length = q1 := by rw [e1]; simp
    rw [hq1] at h
    split at h
    · rename_i t2
      split at h
      · cases h
      · rename_i hn2
        simp only [not_or] at hn2
        obtain ⟨p2, q2, e2, l2, d2, ⟨P2⟩⟩ := wcstol_parts (R := R) (s := t2)
              (v := (wcstol L.space R t2).1) (n := (wcstol L.space R t2).2.1)
              (e := (wcstol L.space R t2).2.2) rfl hn2.1
        obtain ⟨b1, b2, b3, b4, b5⟩ := wcstol_of_parts R P2 d2
        rw [← e2] at b1 b3
        rw [← l2] at h
        have hq2 : t2.drop p2.length = q2 := by rw [e2]; simp
        rw [hq2] at h
        have r1 : R.lmin ≤ (wcstol L.space R txt).1 ∧ (wcstol L.space R txt).1 ≤ R.lmax := by
          have := hn1.2
          rw [a1] at this
          simpa using this
        have r2 : R.lmin ≤ (wcstol L.space R t2).1 ∧ (wcstol L.space R t2).1 ≤ R.lmax := by
          have := hn2.2
          rw [b1] at this
          simpa using this
        obtain ⟨n1, n2, n3⟩ := noDot_of_parts hL a5
        obtain ⟨m1, m2, m3⟩ := noDot_of_parts hL b5
        rw [a3, b3] at h
        split at h
        · rename_i t3
          split at h
          · cases h
          · rename_i hn3
            simp only [not_or] at hn3
            obtain ⟨p3, q3, e3, l3, d3, ⟨P3⟩⟩ := wcstol_parts (R := R) (s := t3)
              (v := (wcstol L.space R t3).1) (n := (wcstol L.space R t3).2.1)
              (e := (wcstol L.space R t3).2.2) rfl hn3.2.1
            obtain ⟨c1, c2, c3, c4, c5⟩ := wcstol_of_parts R P3 d3
            rw [← e3] at c1 c3
            rw [← l3] at h
            have hq3 : t3.drop p3.length = q3 := by rw [e3]; simp
            rw [hq3] at h
            have r3 : R.lmin ≤ (wcstol L.space R t3).1 ∧ (wcstol L.space R t3).1 ≤ R.lmax := by
              have := hn3.2.2
              rw [c1] at this
              simpa using this
            obtain ⟨k1, k2, k3⟩ := noDot_of_parts hL c5
            split at h
            · rename_i tail
              cases h
              refine ⟨p1 ++ '.' :: '.' :: (p2 ++ '.' :: '.' :: p3), tail, ?_, ?_, ?_, ?_, ?_⟩
              · rw [e1, e2, e3]; simp
              · simp; omega
              · simp [n2, m2, k2]
              · simp [n3, m3, k3]
              · simp only [sequence?]
                rw [splitDots_append n1, splitDots_append m1, splitDots_noDot k1]
                simp only [a4, b4, c4]
                rw [if_pos ⟨r1, r2, r3, hn3.1⟩]
            · cases h
        · rename_i tail
          cases h
          refine ⟨p1 ++ '.' :: '.' :: p2, tail, ?_, ?_, ?_, ?_, ?_⟩
          · rw [e1, e2]; simp
          · simp; omega
          · simp [n2, m2]
          · simp [n3, m3]
          · simp only [sequence?]
            rw [splitDots_append n1, splitDots_noDot m1]
            simp only [a4, b4]
            rw [if_pos ⟨r1, r2⟩]
        · cases h
    · cases h

/-- Sequence parsing on a group without commas: `pre` is the part of the content in front of the
first nested group. -/
theorem parseSeq_spec {L : Locale} (hL : L.Ok) {R : LongRange} (content rest : CWord)
    (hc : ∃ pre post, content = pre ++ post ∧ (∀ c ∈ pre, ¬ special c) ∧
      (post = [] ∨ post.head? = some (lit '{'))) :
    parseSeq L R (content ++ lit '}' :: rest) =
      if content.any (fun c => c.2.quoted) then none
      else (sequence? L.space R.lmin R.lmax (text content)).map fun q =>
        ⟨q.start, q.stop, q.step, q.plus, q.width, content.length⟩ := by
  obtain ⟨pre, post, rfl, hpre, hpost⟩ := hc
  cases hs : sequence? L.space R.lmin R.lmax (text (pre ++ post)) with
  | some q =>
    have := seqText_of hs (text rest)
    have e : text (pre ++ post ++ lit '}' :: rest) = text (pre ++ post) ++ '}' :: text rest := by
      simp [text]
    simp only [parseSeq, e, this]
    have hl : (text (pre ++ post)).length = (pre ++ post).length := by simp [text]
    rw [hl]
    have hg : (pre ++ post ++ lit '}' :: rest)[(pre ++ post).length]? = some (lit '}') := by simp
    rw [hg]
    simp only [ne_eq, not_true_eq_false, if_false, List.take_left, Option.map_some]
  | none =>
    have : parseSeq L R (pre ++ post ++ lit '}' :: rest) = none := by
      simp only [parseSeq]
      split
      · rfl
      · rename_i p hp
        obtain ⟨body, tail, e, hl, hb1, hb2, hq⟩ := seqText_some hL hp
        split
        · rfl
        · rename_i c hcb
          split
          · rfl
          · rename_i hlit
            exfalso
            have hch : c.1 = '}' := by
              have h1 : (text (pre ++ post ++ lit '}' :: rest))[p.bracei]? = some c.1 := by
                simp only [text, List.getElem?_map, hcb, Option.map_some]
              rw [e, ← hl] at h1
              simpa using h1.symm
            have hcl : c = lit '}' := by
              simp only [ne_eq, Decidable.not_not] at hlit
              obtain ⟨x, y⟩ := c
              simp only at hch hlit
              rw [hch, hlit]
            -- characters in front of the brace are those of `body`
            have hbody : ∀ i, i < p.bracei → ∀ d, (pre ++ post ++ lit '}' :: rest)[i]? = some d →
                d.1 ≠ '{' ∧ d.1 ≠ '}' := by
              intro i hi d hd
              have h1 : (text (pre ++ post ++ lit '}' :: rest))[i]? = some d.1 := by
                simp only [text, List.getElem?_map, hd, Option.map_some]
              rw [e, List.getElem?_append_left (by omega)] at h1
              have := List.mem_of_getElem? h1
              exact ⟨fun h => hb1 (h ▸ this), fun h => hb2 (h ▸ this)⟩
            rcases Nat.lt_trichotomy p.bracei pre.length with hlt | heq | hgt
            · rw [List.append_assoc, List.getElem?_append_left hlt] at hcb
              have := List.mem_of_getElem? hcb
              exact hpre c this (by rw [hcl]; exact Or.inr (Or.inr rfl))
            · rcases hpost with rfl | hpost
              · have : body = text pre := by
                  have h1 : text (pre ++ [] ++ lit '}' :: rest) = text pre ++ '}' :: text rest := by
                    simp [text]
                  rw [h1] at e
                  have h2 : body.length = (text pre).length := by rw [hl, heq]; simp [text]
                  exact (List.append_inj_left e.symm h2)
                rw [this] at hq
                rw [List.append_nil] at hs
                rw [hs] at hq
                cases hq
              · rw [heq] at hcb
                cases post with
                | nil => cases hpost
                | cons x post =>
                  simp at hcb hpost
                  rw [hcl, hpost] at hcb
                  simp at hcb
            · have hd : ∃ d, (pre ++ post ++ lit '}' :: rest)[pre.length]? = some d ∧
                  (d.1 = '{' ∨ d.1 = '}') := by
                rcases hpost with rfl | hpost
                · exact ⟨lit '}', by simp, Or.inr rfl⟩
                · cases post with
                  | nil => cases hpost
                  | cons x post =>
                    simp at hpost
                    exact ⟨x, by simp, Or.inl (by rw [hpost])⟩
              obtain ⟨d, hd1, hd2⟩ := hd
              have := hbody _ hgt d hd1
              rcases hd2 with h | h
              · exact this.1 h
              · exact this.2 h
    rw [this]
    simp

end Yash.Expand
