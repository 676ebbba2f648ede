import Verif.Read.Props
/-!
# C66: the specification determines the values, and examples
-/
set_option autoImplicit false

namespace Yash.Read

open Yash.Expand Yash.Expand.Spec Yash.Read.Spec

theorem allFields_sep {space : Char → Bool} {ifs : List Char} {c : CChar} {w : CWord}
    (h : splittable ifs c) (hs : space c.1 = false) :
    allFields space ifs (c :: w) = [] :: allFields space ifs w := by
  have h1 : isSep space ifs c = true := by simp [isSep, h, hs]
  simp [allFields, cut, h1, pieceFields]

theorem allFields_white {space : Char → Bool} {ifs : List Char} {c : CChar} {w : CWord}
    (h : splittable ifs c) (hs : space c.1 = true) :
    allFields space ifs (c :: w) = allFields space ifs w := by
  have h1 : isSep space ifs c = false := by simp [isSep, hs]
  have h2 : isWhite space ifs c = true := by simp [isWhite, h, hs]
  obtain ⟨a, l, hcut⟩ := List.exists_cons_of_ne_nil (cut_ne_nil (isSep space ifs) w)
  simp [allFields, cut, h1, hcut, pieceFields, h2]

theorem allFields_ne_nil (space : Char → Bool) (ifs : List Char) (w : CWord) :
    allFields space ifs w ≠ [] := by
  obtain ⟨a, l, hcut⟩ := List.exists_cons_of_ne_nil (cut_ne_nil (isSep space ifs) w)
  simp only [allFields, hcut, List.flatMap_cons]
  split <;> simp_all

theorem allFields_seps {space : Char → Bool} {ifs : List Char} (d w : CWord)
    (h : ∀ c ∈ d, splittable ifs c) :
    ∃ n, allFields space ifs (d ++ w) = List.replicate n [] ++ allFields space ifs w := by
  induction d with
  | nil => exact ⟨0, by simp⟩
  | cons c d ih =>
    obtain ⟨n, hn⟩ := ih (fun x hx => h x (by simp [hx]))
    cases hs : space c.1 with
    | true => exact ⟨n, by rw [List.cons_append, allFields_white (h c (by simp)) hs, hn]⟩
    | false =>
      exact ⟨n + 1, by
        rw [List.cons_append, allFields_sep (h c (by simp)) hs, hn]
        rfl⟩

theorem pieces_chars {sep : CChar → Prop} [DecidablePred sep] {w : CWord} {fs : List CWord}
    (h : Pieces sep w fs) : fs.flatten = w.filter (fun c => ¬ sep c) := by
  induction h with
  | done s hs =>
    have : s.filter (fun c => ¬ sep c) = [] := by simpa using hs
    rw [this]; rfl
  | field s f rest fs hs hf hr ih =>
    have h1 : s.filter (fun c => decide (¬ sep c)) = [] := by simpa using hs
    have h2 : f.filter (fun c => decide (¬ sep c)) = f := by simpa using hf
    rw [List.filter_append, List.filter_append, h1, h2, List.flatten_cons, ih]
    rfl

theorem fields_chars (L : Locale) (emptylast : Bool) (ifs : List Char) (w : CWord) :
    (fields L.space emptylast ifs w).flatten = w.filter (fun c => ¬ splittable ifs c) := by
  rw [← C14_fieldsplit_spec]
  exact pieces_chars (C15_fieldsplit_pieces L emptylast ifs w)

/-- Two decompositions of a list in which the second part consists of other elements than the last
one of the first part. -/
theorem trailing_unique {α : Type} {p : α → Prop} {a b c d : List α} (h : a ++ b = c ++ d)
    (ha : ∀ x ∈ a.getLast?, ¬ p x) (hb : ∀ x ∈ b, p x) (hc : ∀ x ∈ c.getLast?, ¬ p x)
    (hd : ∀ x ∈ d, p x) : a = c ∧ b = d := by
  rcases List.append_eq_append_iff.1 h with ⟨x, h1, h2⟩ | ⟨x, h1, h2⟩
  · rcases List.eq_nil_or_concat x with rfl | ⟨y, z, rfl⟩
    · exact ⟨by simpa using h1.symm, by simpa using h2⟩
    · exfalso
      apply hc z (by simp [h1])
      apply hb
      rw [h2]; simp
  · rcases List.eq_nil_or_concat x with rfl | ⟨y, z, rfl⟩
    · exact ⟨by simpa using h1, by simpa using h2.symm⟩
    · exfalso
      apply ha z (by simp [h1])
      apply hd
      rw [h2]; simp

/-- A later start of the remainder would lose a field. -/
theorem no_later_start (L : Locale) (emptylast : Bool) (ifs : List Char) {d T : CWord}
    (hd : d ≠ []) (hhead : ∀ c ∈ d.head?, ¬ (splittable ifs c ∧ L.space c.1 = true))
    (hT : fields L.space emptylast ifs (d ++ T) = fields L.space emptylast ifs T) : False := by
  have hsep : ∀ c ∈ d, splittable ifs c := by
    have h1 := congrArg List.flatten hT
    rw [fields_chars, fields_chars, List.filter_append] at h1
    have h2 := (List.append_cancel_right (h1.trans (List.nil_append _).symm))
    intro c hc
    have := List.filter_eq_nil_iff.1 h2 c hc
    simpa using this
  cases d with
  | nil => exact hd rfl
  | cons c d =>
    have hc := hsep c (by simp)
    have hs : L.space c.1 = false := by
      cases h : L.space c.1 with
      | false => rfl
      | true => exact absurd ⟨hc, h⟩ (hhead c (by simp))
    obtain ⟨n, hn⟩ := allFields_seps (space := L.space) d T (fun x hx => hsep x (by simp [hx]))
    have hA := allFields_ne_nil L.space ifs T
    have h1 : allFields L.space ifs (c :: d ++ T) =
        List.replicate (n + 1) [] ++ allFields L.space ifs T := by
      rw [List.cons_append, allFields_sep hc hs, hn]; rfl
    simp only [fields, h1] at hT
    generalize allFields L.space ifs T = A at hT hA
    have hlen : A.length ≠ 0 := fun h => hA (List.eq_nil_of_length_eq_zero h)
    have hlast : (List.replicate (n + 1) ([] : CWord) ++ A).getLast? = A.getLast? := by
      rw [List.getLast?_append]
      cases h : A.getLast? with
      | none => exact absurd (List.getLast?_eq_none_iff.1 h) hA
      | some x => rfl
    rw [hlast] at hT
    have h2 : (List.replicate (n + 1) ([] : CWord) ++ A).length ≠ 1 := by simp; omega
    have hT := congrArg List.length hT
    split at hT <;> split at hT <;> simp at hT h2 <;> try omega
    rename_i h3 h4
    exact h4 ⟨h3.1, .inl (h3.2.resolve_right (by simp; omega))⟩

theorem remainder_before (L : Locale) (emptylast : Bool) (ifs : List Char) {b1 r1 b2 r2 white : CWord}
    (h : b1 ++ r1 = b2 ++ r2) (hle : b1.length ≤ b2.length)
    (hhead : ∀ c ∈ r1.head?, ¬ (splittable ifs c ∧ L.space c.1 = true))
    (hT : fields L.space emptylast ifs (r1 ++ white) = fields L.space emptylast ifs (r2 ++ white)) :
    r1 = r2 := by
  rcases List.append_eq_append_iff.1 h with ⟨x, h1, h2⟩ | ⟨x, h1, h2⟩
  · subst h1 h2
    cases x with
    | nil => rfl
    | cons c x =>
      exfalso
      rw [List.append_assoc] at hT
      exact no_later_start L emptylast ifs (by simp) (by simpa using hhead) hT
  · have : x = [] := by
      have := congrArg List.length h1
      simp at this
      exact List.eq_nil_of_length_eq_zero (by omega)
    subst this
    simpa using h2.symm

/-- The remainder is determined by its specification. -/
theorem remainder_unique (L : Locale) (emptylast : Bool) (ifs : List Char) (w : CWord) (k : Nat)
    (hk : k < (fields L.space emptylast ifs w).length) {r1 r2 : CWord}
    (h1 : Remainder L.space emptylast ifs w k r1) (h2 : Remainder L.space emptylast ifs w k r2) :
    r1 = r2 := by
  obtain ⟨b1, v1, e1, w1, f1, l1, _, t1⟩ := h1
  obtain ⟨b2, v2, e2, w2, f2, l2, _, t2⟩ := h2
  have hne : ∀ r v, (∀ c ∈ v, splittable ifs c ∧ L.space c.1 = true) →
      fields L.space emptylast ifs (r ++ v) = (fields L.space emptylast ifs w).drop k → r ≠ [] := by
    intro r v hv ht hr
    subst hr
    have h0 : allFields L.space ifs v = [[]] := by
      rw [allFields_loopL]
      exact loopL_white v false (fun c hc => (isIfsWhitespace_iff L ifs c).2 (hv c hc))
    have := congrArg List.length ht
    rw [List.nil_append] at this
    simp only [fields, h0] at this
    simp at this
    simp only [fields] at hk
    omega
  have hlast : ∀ b r : CWord, r ≠ [] → (b ++ r).getLast? = r.getLast? := by
    intro b r hr
    rw [List.getLast?_append]
    cases h : r.getLast? with
    | none => exact absurd (List.getLast?_eq_none_iff.1 h) hr
    | some x => rfl
  obtain ⟨hbr, hv⟩ := trailing_unique (p := fun c => splittable ifs c ∧ L.space c.1 = true)
    (e1.symm.trans e2)
    (by rw [hlast _ _ (hne r1 v1 w1 t1)]; exact l1) w1
    (by rw [hlast _ _ (hne r2 v2 w2 t2)]; exact l2) w2
  subst hv
  rcases Nat.le_total b1.length b2.length with hle | hle
  · exact remainder_before L emptylast ifs hbr hle f1 (t1.trans t2.symm)
  · exact (remainder_before L emptylast ifs hbr.symm hle f2 (t2.trans t1.symm)).symm

/-- What is read is determined by the specification. -/
theorem logical_unique {t : List Char} {w w' : CWord} {e e' : Bool} {r r' : List Char}
    (h : Logical t w e r) (h' : Logical t w' e' r') : w = w' ∧ e = e' ∧ r = r' := by
  have h1 := rwp_logical h
  rw [rwp_logical h'] at h1
  have h2 := (Prod.mk.injEq .. ▸ h1 : _ ∧ _).1
  have h3 := congrArg chomp h2
  rw [chomp_ending (logical_no_newline h), chomp_ending (logical_no_newline h')] at h3
  simp only [Prod.mk.injEq, Bool.not_inj_iff] at h3
  exact ⟨h3.1.symm, h3.2.symm, (Prod.mk.injEq .. ▸ h1 : _ ∧ _).2.symm⟩

/-- **C66.** The specification leaves no freedom: the values are determined by the line. -/
theorem C66_values_determined (L : Locale) (emptylast : Bool) (ifs : List Char) (w : CWord)
    (array : Bool) (names : List (List Char)) (a a' : List (List Char × Value))
    (h : Assigned L.space emptylast ifs w array names a)
    (h' : Assigned L.space emptylast ifs w array names a') : a = a' := by
  have hinit : ∀ (n : Nat) (x y : List (List Char)), x.length = n → y.length = n →
      (∀ i (_ : i < x.length), x[i] = ((fields L.space emptylast ifs w)[i]?.map text).getD []) →
      (∀ i (_ : i < y.length), y[i] = ((fields L.space emptylast ifs w)[i]?.map text).getD []) →
      x = y := by
    intro n x y hx hy h1 h2
    apply List.ext_getElem (by omega)
    intro i hi hi'
    rw [h1 i hi, h2 i hi']
  generalize hn : names = names' at h'
  cases h with
  | scalar init inits name v e1 e2 e3 =>
    cases h' with
    | scalar init' inits' name' v' e1' e2' e3' =>
      obtain ⟨rfl, h5⟩ := List.append_inj' hn rfl
      cases h5
      have h6 := hinit _ _ _ e1 e1' e2 e2'
      subst h6
      congr 3
      unfold LastScalar at e3 e3'
      generalize hfs : (fields L.space emptylast ifs w).drop init.length = fs at e3 e3'
      rcases fs with _ | ⟨f, _ | ⟨g, l⟩⟩
      · exact congrArg _ (e3.trans e3'.symm)
      · exact congrArg _ (e3.trans e3'.symm)
      · obtain ⟨r, hr, rfl⟩ := e3
        obtain ⟨r', hr', rfl⟩ := e3'
        rw [remainder_unique L emptylast ifs w init.length (by
          apply Classical.byContradiction
          intro hk
          rw [List.drop_eq_nil_iff.2 (by omega)] at hfs
          cases hfs) hr hr']
  | array init inits name vs e1 e2 e3 =>
    cases h' with
    | array init' inits' name' vs' e1' e2' e3' =>
      obtain ⟨rfl, h5⟩ := List.append_inj' hn rfl
      cases h5
      have h6 := hinit _ _ _ e1 e1' e2 e2'
      subst h6
      congr 3
      unfold LastArray at e3 e3'
      generalize (fields L.space emptylast ifs w).drop init.length = fs at e3 e3'
      rcases fs with _ | ⟨_ | ⟨c, f⟩, _ | ⟨g, l⟩⟩ <;> exact congrArg _ (e3.trans e3'.symm)

/-- A locale in which the space, the tab and the newline are white space. -/
def sampleLocale : Locale where
  alnum := fun c => c.isAlphanum
  blank := fun c => c = ' ' || c = '\t'
  space := fun c => c = ' ' || c = '\t' || c = '\n'

/-- Nonvacuity: two lines that are joined, an escaped space, more fields than variables. -/
example : Logical "a b\\ c \\\n: d \nnext".toList
    ("a b".toList.map Spec.plain ++ [Spec.quoted ' '] ++ "c : d ".toList.map Spec.plain) true
    "next".toList := by
  repeat' first
    | exact .newline _
    | exact .continued _ _ _ _ (by assumption)
    | refine .plain _ _ _ _ _ (by decide) (by decide) ?_
    | refine .escaped _ _ _ _ _ (by decide) ?_
    | refine .continued _ _ _ _ ?_

/-- What is assigned in this case. -/
example : Assigned sampleLocale.space false " :".toList
    ("a b".toList.map Spec.plain ++ [Spec.quoted ' '] ++ "c : d ".toList.map Spec.plain) false
    ["x".toList, "y".toList] [("x".toList, .scalar "a".toList), ("y".toList, .scalar "b c : d".toList)] :=
  .scalar ["x".toList] ["a".toList] "y".toList "b c : d".toList rfl
    (by intro i hi; simp at hi; subst hi; exact (by decide +kernel : "a".toList = ((fields sampleLocale.space false " :".toList
        ("a b".toList.map Spec.plain ++ [Spec.quoted ' '] ++ "c : d ".toList.map Spec.plain))[0]?.map
          text).getD []))
    (by
      show LastScalar _ _ _ _ 1 _
      refine ⟨"b".toList.map Spec.plain ++ [Spec.quoted ' '] ++ "c : d".toList.map Spec.plain,
        ⟨"a ".toList.map Spec.plain, " ".toList.map Spec.plain, ?_⟩, ?_⟩ <;> decide +kernel)

end Yash.Read
