import Verif.TestBuiltin.Grammar
set_option autoImplicit false

/-!
# Version comparison
-/

namespace Yash.TestBuiltin

namespace Spec

/-- A component of a version string: a number, a letter, or another character. -/
inductive Component
  | number (n : Nat)
  | letter (c : Char)
  | other (c : Char)

/-- Split a string into components: maximal runs of digits are numbers (limited to what the largest
unsigned C integer type can hold), every other character is a component by itself. -/
inductive Components (W : World) : Word → List Component → Prop
  | nil : Components W [] []
  | number (ds rest : Word) (cs : List Component) :
      ds ≠ [] → (∀ c ∈ ds, c ∈ "0123456789".toList) →
      (∀ c, rest.head? = some c → c ∉ "0123456789".toList) →
      Components W rest cs →
      Components W (ds ++ rest) (.number (min (decimal ds) (2 ^ 64 - 1)) :: cs)
  | letter (c : Char) (rest : Word) (cs : List Component) :
      c ∉ "0123456789".toList → W.isAlnum c = true → Components W rest cs →
      Components W (c :: rest) (.letter c :: cs)
  | other (c : Char) (rest : Word) (cs : List Component) :
      c ∉ "0123456789".toList → W.isAlnum c = false → Components W rest cs →
      Components W (c :: rest) (.other c :: cs)

/-- Order of components: other characters come before letters before numbers; characters of one
kind are ordered by `rank`, numbers by value. -/
inductive Component.Less (rank : Char → Nat) : Component → Component → Prop
  | otherLetter (c d : Char) : Less rank (.other c) (.letter d)
  | otherNumber (c : Char) (n : Nat) : Less rank (.other c) (.number n)
  | letterNumber (c : Char) (n : Nat) : Less rank (.letter c) (.number n)
  | other (c d : Char) : rank c < rank d → Less rank (.other c) (.other d)
  | letter (c d : Char) : rank c < rank d → Less rank (.letter c) (.letter d)
  | number (m n : Nat) : m < n → Less rank (.number m) (.number n)

/-- Lexicographic order of component lists. -/
inductive VersionLess (rank : Char → Nat) : List Component → List Component → Prop
  | shorter (c : Component) (cs : List Component) : VersionLess rank [] (c :: cs)
  | first (c d : Component) (cs ds : List Component) : c.Less rank d →
      VersionLess rank (c :: cs) (d :: ds)
  | rest (c : Component) (cs ds : List Component) : VersionLess rank cs ds →
      VersionLess rank (c :: cs) (c :: ds)

/-- A collation that is decided by the first differing character when that is the first one, as in
the POSIX locale where `rank` is the code of the character. -/
structure ByFirstChar (coll : Word → Word → Int) (rank : Char → Nat) : Prop where
  injective : ∀ c d, rank c = rank d → c = d
  less : ∀ c d r s, rank c < rank d → coll (c :: r) (d :: s) < 0
  greater : ∀ c d r s, rank d < rank c → coll (c :: r) (d :: s) > 0
  nilLess : ∀ c r, coll [] (c :: r) < 0
  nilGreater : ∀ c r, coll (c :: r) [] > 0

end Spec

open Spec

theorem atChar_digit (c : Char) (r : Word) (h : c ∉ "0123456789".toList) :
    atChar isDigit (c :: r) = false := by
  rw [mem_digits] at h
  simpa [atChar] using h

theorem takeWhile_digits {ds rest : Word} (h1 : ∀ c ∈ ds, c ∈ "0123456789".toList)
    (h2 : ∀ c, rest.head? = some c → c ∉ "0123456789".toList) :
    (ds ++ rest).takeWhile isDigit = ds ∧ (ds ++ rest).dropWhile isDigit = rest := by
  induction ds with
  | nil =>
    cases rest with
    | nil => exact ⟨rfl, rfl⟩
    | cons c r =>
      have : isDigit c = false := by
        have := h2 c rfl
        rw [mem_digits] at this
        simpa using this
      simp [this]
  | cons d ds ih =>
    have hd : isDigit d = true := (mem_digits d).1 (h1 d (by simp))
    have := ih (fun c hc => h1 c (by simp [hc]))
    simp [hd, this]

theorem components_total (W : World) (s : Word) : ∃ cs, Components W s cs := by
  induction h : s.length using Nat.strongRecOn generalizing s with
  | _ n ih =>
    cases s with
    | nil => exact ⟨[], .nil⟩
    | cons c r =>
      by_cases hc : c ∈ "0123456789".toList
      · have hs : c :: r = (c :: r).takeWhile isDigit ++ (c :: r).dropWhile isDigit :=
          List.takeWhile_append_dropWhile.symm
        have hne : (c :: r).takeWhile isDigit ≠ [] := by simp [(mem_digits c).1 hc]
        have hall : ∀ x ∈ (c :: r).takeWhile isDigit, x ∈ "0123456789".toList := by
          intro x hx
          exact (mem_digits x).2 (List.all_eq_true.1 List.all_takeWhile x hx)
        have hrest : ∀ x, ((c :: r).dropWhile isDigit).head? = some x → x ∉ "0123456789".toList := by
          intro x hx
          have := List.head?_dropWhile_not isDigit (c :: r)
          rw [hx] at this
          rw [mem_digits]
          simpa using this
        have hlen : ((c :: r).dropWhile isDigit).length < n := by
          have := congrArg List.length hs
          rw [List.length_append] at this
          have := List.length_pos_iff.2 hne
          omega
        obtain ⟨cs, hcs⟩ := ih _ hlen _ rfl
        rw [hs]
        exact ⟨_, .number _ _ _ hne hall hrest hcs⟩
      · obtain ⟨cs, hcs⟩ := ih r.length (by rw [← h]; simp) r rfl
        cases ha : W.isAlnum c with
        | true => exact ⟨_, .letter c r cs hc ha hcs⟩
        | false => exact ⟨_, .other c r cs hc ha hcs⟩

/-- Sign of the comparison, stated relationally. -/
def Agrees (rank : Char → Nat) (v : Int) (cs ds : List Component) : Prop :=
  (v < 0 ∧ VersionLess rank cs ds) ∨ (v = 0 ∧ cs = ds) ∨ (v > 0 ∧ VersionLess rank ds cs)

theorem components_ne_nil {W : World} {c : Char} {r : Word} {cs : List Component}
    (h : Components W (c :: r) cs) : ∃ x xs, cs = x :: xs := by
  generalize hs : c :: r = s at h
  cases h with
  | nil => cases hs
  | number => exact ⟨_, _, rfl⟩
  | letter => exact ⟨_, _, rfl⟩
  | other => exact ⟨_, _, rfl⟩

theorem components_nil {W : World} {cs : List Component} (h : Components W [] cs) : cs = [] := by
  generalize hs : ([] : Word) = s at h
  cases h with
  | nil => rfl
  | number ds rest _ hne => exact absurd (List.append_eq_nil_iff.1 hs.symm).1 hne
  | letter => cases hs
  | other => cases hs

theorem versionNumbers_none {l r : Word} (hl : atChar isDigit l = false)
    (hr : atChar isDigit r = false) : versionNumbers l r = .inr (l, r) := by
  simp [versionNumbers, hl, hr]

/-- The part of `compare_versions` after the numbers. -/
def compareChars (W : World) (l r : Word) : Int :=
  if atChar W.isAlnum l && !atChar W.isAlnum r then 1
  else if !atChar W.isAlnum l && atChar W.isAlnum r then -1
  else if l.head? ≠ r.head? then W.coll l r
  else match l, r with
    | _ :: l', _ :: r' => compareVersions W l' r'
    | _, _ => 0

theorem compareVersions_inl {W : World} {l r : Word} {v : Int} (h : versionNumbers l r = .inl v) :
    compareVersions W l r = v := by
  rw [compareVersions]
  split
  · rename_i v' h'
    rw [h] at h'; cases h'; rfl
  · rename_i h'
    rw [h] at h'; cases h'

theorem compareVersions_inr {W : World} {l r l' r' : Word}
    (h : versionNumbers l r = .inr (l', r')) : compareVersions W l r = compareChars W l' r' := by
  rw [compareVersions]
  split
  · rename_i h'
    rw [h] at h'; cases h'
  · rename_i a b h'
    rw [h] at h'; cases h'
    cases l' <;> cases r' <;> rfl

theorem chars_agree (W : World) (rank : Char → Nat) (hc : ByFirstChar W.coll rank) (l r : Word)
    (cs ds : List Component) (hl : Components W l cs) (hr : Components W r ds)
    (dl : ∀ c, l.head? = some c → c ∉ "0123456789".toList)
    (dr : ∀ c, r.head? = some c → c ∉ "0123456789".toList)
    (ih : ∀ l' r' cs' ds', l'.length < l.length → Components W l' cs' → Components W r' ds' →
      Agrees rank (compareVersions W l' r') cs' ds') :
    Agrees rank (compareChars W l r) cs ds := by
  cases l with
  | nil =>
    cases components_nil hl
    cases r with
    | nil =>
      cases components_nil hr
      exact .inr (.inl ⟨rfl, rfl⟩)
    | cons d r =>
      obtain ⟨x, xs, rfl⟩ := components_ne_nil hr
      refine .inl ⟨?_, .shorter _ _⟩
      cases ha : W.isAlnum d
      · simp only [compareChars, atChar, ha]
        exact hc.nilLess d r
      · simp [compareChars, atChar, ha]
  | cons c l =>
    cases r with
    | nil =>
      cases components_nil hr
      obtain ⟨x, xs, rfl⟩ := components_ne_nil hl
      refine .inr (.inr ⟨?_, .shorter _ _⟩)
      cases ha : W.isAlnum c
      · simp only [compareChars, atChar, ha]
        exact hc.nilGreater c l
      · simp [compareChars, atChar, ha]
    | cons d r =>
      have hcd := dl c rfl
      have hdd := dr d rfl
      have inv : ∀ (c : Char) (l : Word) (cs : List Component), c ∉ "0123456789".toList →
          Components W (c :: l) cs → ∃ cs', Components W l cs' ∧
            cs = (if W.isAlnum c then .letter c else .other c) :: cs' := by
        intro c l cs hcd hl
        generalize hs : c :: l = s at hl
        cases hl with
        | nil => cases hs
        | number ds rest cs hne hall _ _ =>
          cases ds with
          | nil => exact absurd rfl hne
          | cons d ds => cases hs; exact absurd (hall c (by simp)) hcd
        | letter _ _ _ _ ha hr => cases hs; exact ⟨_, hr, by rw [if_pos ha]⟩
        | other _ _ _ _ ha hr => cases hs; exact ⟨_, hr, by rw [if_neg (by simp [ha])]⟩
      obtain ⟨cs', hl', rfl⟩ := inv c l cs hcd hl
      obtain ⟨ds', hr', rfl⟩ := inv d r ds hdd hr
      by_cases hne : c = d
      · subst hne
        have h := ih l r cs' ds' (by simp) hl' hr'
        have e : compareChars W (c :: l) (c :: r) = compareVersions W l r := by
          cases ha : W.isAlnum c <;> simp [compareChars, atChar, ha]
        rw [e]
        rcases h with ⟨h1, h2⟩ | ⟨h1, h2⟩ | ⟨h1, h2⟩
        · exact .inl ⟨h1, .rest _ _ _ h2⟩
        · exact .inr (.inl ⟨h1, by rw [h2]⟩)
        · exact .inr (.inr ⟨h1, .rest _ _ _ h2⟩)
      · have hrank : rank c ≠ rank d := fun e => hne (hc.injective _ _ e)
        cases ha : W.isAlnum c <;> cases hb : W.isAlnum d
        · have e : compareChars W (c :: l) (d :: r) = W.coll (c :: l) (d :: r) := by
            simp [compareChars, atChar, ha, hb, hne]
          rw [e]
          rcases Nat.lt_or_gt_of_ne hrank with h | h
          · exact .inl ⟨hc.less _ _ _ _ h, .first _ _ _ _ (.other _ _ h)⟩
          · exact .inr (.inr ⟨hc.greater _ _ _ _ h, .first _ _ _ _ (.other _ _ h)⟩)
        · exact .inl ⟨by simp [compareChars, atChar, ha, hb], .first _ _ _ _ (.otherLetter _ _)⟩
        · exact .inr (.inr ⟨by simp [compareChars, atChar, ha, hb],
            .first _ _ _ _ (.otherLetter _ _)⟩)
        · have e : compareChars W (c :: l) (d :: r) = W.coll (c :: l) (d :: r) := by
            simp [compareChars, atChar, ha, hb, hne]
          rw [e]
          rcases Nat.lt_or_gt_of_ne hrank with h | h
          · exact .inl ⟨hc.less _ _ _ _ h, .first _ _ _ _ (.letter _ _ h)⟩
          · exact .inr (.inr ⟨hc.greater _ _ _ _ h, .first _ _ _ _ (.letter _ _ h)⟩)

/-- A string that begins with a digit. -/
theorem components_digit {W : World} {s : Word} {cs : List Component} (h : Components W s cs)
    (hd : atChar isDigit s = true) : ∃ rest cs', Components W rest cs' ∧
      rest.length < s.length ∧ (∀ c, rest.head? = some c → c ∉ "0123456789".toList) ∧
      wcstoumax s = ((wcstoumax s).1, rest) ∧ cs = .number (wcstoumax s).1 :: cs' := by
  cases h with
  | nil => cases hd
  | number ds rest cs' hne hall hr hc =>
    obtain ⟨h1, h2⟩ := takeWhile_digits hall hr
    have hp := List.length_pos_iff.2 hne
    refine ⟨rest, cs', hc, by rw [List.length_append]; omega, hr, ?_, ?_⟩
    · simp [wcstoumax, h2]
    · simp [wcstoumax, h1, digitsVal_zero]
  | letter c rest _ hn => rw [atChar_digit c rest hn] at hd; cases hd
  | other c rest _ hn => rw [atChar_digit c rest hn] at hd; cases hd

theorem components_nondigit {W : World} {s : Word} {cs : List Component} (h : Components W s cs)
    (hd : atChar isDigit s = false) : (∀ c, s.head? = some c → c ∉ "0123456789".toList) ∧
      (cs = [] ∨ (∃ c cs', cs = .letter c :: cs') ∨ ∃ c cs', cs = .other c :: cs') := by
  constructor
  · intro c hc
    rw [mem_digits]
    cases s with
    | nil => cases hc
    | cons x r => cases hc; simpa [atChar] using hd
  · cases h with
    | nil => exact .inl rfl
    | number ds rest cs' hne hall hr hc =>
      cases ds with
      | nil => exact absurd rfl hne
      | cons d ds =>
        have := (mem_digits d).1 (hall d (by simp))
        simp [atChar, this] at hd
    | letter => exact .inr (.inl ⟨_, _, rfl⟩)
    | other => exact .inr (.inr ⟨_, _, rfl⟩)

theorem versions_agree (W : World) (rank : Char → Nat) (hc : ByFirstChar W.coll rank) (n : Nat) :
    ∀ (l r : Word) (cs ds : List Component), l.length = n → Components W l cs → Components W r ds →
      Agrees rank (compareVersions W l r) cs ds := by
  induction n using Nat.strongRecOn with
  | _ n ih =>
    intro l r cs ds hn hl hr
    cases hdl : atChar isDigit l <;> cases hdr : atChar isDigit r
    · rw [compareVersions_inr (versionNumbers_none hdl hdr)]
      exact chars_agree W rank hc l r cs ds hl hr (components_nondigit hl hdl).1
        (components_nondigit hr hdr).1
        (fun l' r' cs' ds' hlen h1 h2 => ih l'.length (by omega) l' r' cs' ds' rfl h1 h2)
    · rw [compareVersions_inl (v := -1) (by simp [versionNumbers, hdl, hdr])]
      obtain ⟨rest, cs', _, _, _, _, rfl⟩ := components_digit hr hdr
      refine .inl ⟨by decide, ?_⟩
      rcases (components_nondigit hl hdl).2 with rfl | ⟨c, cs2, rfl⟩ | ⟨c, cs2, rfl⟩
      · exact .shorter _ _
      · exact .first _ _ _ _ (.letterNumber _ _)
      · exact .first _ _ _ _ (.otherNumber _ _)
    · rw [compareVersions_inl (v := 1) (by simp [versionNumbers, hdl, hdr])]
      obtain ⟨rest, cs', _, _, _, _, rfl⟩ := components_digit hl hdl
      refine .inr (.inr ⟨by decide, ?_⟩)
      rcases (components_nondigit hr hdr).2 with rfl | ⟨c, cs2, rfl⟩ | ⟨c, cs2, rfl⟩
      · exact .shorter _ _
      · exact .first _ _ _ _ (.letterNumber _ _)
      · exact .first _ _ _ _ (.otherNumber _ _)
    · obtain ⟨rl, cl, h1, h2, h3, h4, rfl⟩ := components_digit hl hdl
      obtain ⟨rr, cr, g1, g2, g3, g4, rfl⟩ := components_digit hr hdr
      generalize (wcstoumax l).1 = a at h4
      generalize (wcstoumax r).1 = b at g4
      rcases Nat.lt_trichotomy a b with h | h | h
      · rw [compareVersions_inl (v := -1)
          (by simp [versionNumbers, hdl, hdr, h4, g4, h, Nat.not_lt.2 (Nat.le_of_lt h)])]
        exact .inl ⟨by decide, .first _ _ _ _ (.number _ _ h)⟩
      · subst h
        rw [compareVersions_inr (l' := rl) (r' := rr) (by simp [versionNumbers, hdl, hdr, h4, g4])]
        have := chars_agree W rank hc rl rr cl cr h1 g1 h3 g3
          (fun l' r' cs' ds' hlen h1 h2 => ih l'.length (by omega) l' r' cs' ds' rfl h1 h2)
        rcases this with ⟨h1, h2⟩ | ⟨h1, h2⟩ | ⟨h1, h2⟩
        · exact .inl ⟨h1, .rest _ _ _ h2⟩
        · exact .inr (.inl ⟨h1, by rw [h2]⟩)
        · exact .inr (.inr ⟨h1, .rest _ _ _ h2⟩)
      · rw [compareVersions_inl (v := 1) (by simp [versionNumbers, hdl, hdr, h4, g4, h])]
        exact .inr (.inr ⟨by decide, .first _ _ _ _ (.number _ _ h)⟩)

/-! ### The order -/

theorem Spec.Component.Less.irrefl {rank : Char → Nat} {c : Component} (h : c.Less rank c) : False := by
  cases h <;> omega

theorem Spec.Component.Less.trans {rank : Char → Nat} {a b c : Component} (h1 : a.Less rank b)
    (h2 : b.Less rank c) : a.Less rank c := by
  cases h1 <;> cases h2 <;> constructor <;> omega

theorem versionLess_irrefl {rank : Char → Nat} {cs : List Component}
    (h : VersionLess rank cs cs) : False := by
  induction cs with
  | nil => cases h
  | cons c cs ih =>
    cases h with
    | first _ _ _ _ h => exact h.irrefl
    | rest _ _ _ h => exact ih h

theorem versionLess_trans {rank : Char → Nat} {a b c : List Component}
    (h1 : VersionLess rank a b) (h2 : VersionLess rank b c) : VersionLess rank a c := by
  induction h1 generalizing c with
  | shorter => cases h2 <;> exact .shorter _ _
  | first _ _ _ _ h =>
    cases h2 with
    | first _ _ _ _ h' => exact .first _ _ _ _ (h.trans h')
    | rest _ _ _ h' => exact .first _ _ _ _ h
  | rest _ _ _ h ih =>
    cases h2 with
    | first _ _ _ _ h' => exact .first _ _ _ _ h'
    | rest _ _ _ h' => exact .rest _ _ _ (ih h')

theorem versionLess_asymm {rank : Char → Nat} {a b : List Component}
    (h1 : VersionLess rank a b) (h2 : VersionLess rank b a) : False :=
  versionLess_irrefl (versionLess_trans h1 h2)

theorem agrees_iff {rank : Char → Nat} {v : Int} {cs ds : List Component}
    (h : Agrees rank v cs ds) : (v < 0 ↔ VersionLess rank cs ds) ∧ (v = 0 ↔ cs = ds) ∧
      (v > 0 ↔ VersionLess rank ds cs) := by
  rcases h with ⟨h1, h2⟩ | ⟨h1, h2⟩ | ⟨h1, h2⟩
  · refine ⟨⟨fun _ => h2, fun _ => h1⟩, ⟨fun _ => by omega, ?_⟩, ⟨fun _ => by omega, ?_⟩⟩
    · rintro rfl; exact (versionLess_irrefl h2).elim
    · intro h; exact (versionLess_asymm h h2).elim
  · subst h2
    refine ⟨⟨fun _ => by omega, fun h => (versionLess_irrefl h).elim⟩, ⟨fun _ => rfl, fun _ => h1⟩,
      ⟨fun _ => by omega, fun h => (versionLess_irrefl h).elim⟩⟩
  · refine ⟨⟨fun _ => by omega, ?_⟩, ⟨fun _ => by omega, ?_⟩, ⟨fun _ => h2, fun _ => h1⟩⟩
    · intro h; exact (versionLess_asymm h h2).elim
    · rintro rfl; exact (versionLess_irrefl h2).elim

/-- Symmetry for any collation that is symmetric. -/
theorem compareVersions_antisymm (W : World)
    (hc : ∀ a b, (W.coll a b).sign = -(W.coll b a).sign) (n : Nat) :
    ∀ l r : Word, l.length = n → (compareVersions W l r).sign = -(compareVersions W r l).sign := by
  induction n using Nat.strongRecOn with
  | _ n ih =>
    intro l r hn
    have chars : ∀ l' r' : Word, l'.length ≤ l.length →
        (compareChars W l' r').sign = -(compareChars W r' l').sign := by
      intro l' r' hle
      unfold compareChars
      cases hl : atChar W.isAlnum l' <;> cases hr : atChar W.isAlnum r' <;> simp
      all_goals
        by_cases he : l'.head? = r'.head?
        · simp only [he, not_true_eq_false, if_false]
          cases l' with
          | nil =>
            cases r' with
            | nil => rfl
            | cons d r' => cases he
          | cons c l' =>
            cases r' with
            | nil => cases he
            | cons d r' =>
              rw [List.length_cons] at hle
              exact ih l'.length (by omega) l' r' rfl
        · have he' : ¬ r'.head? = l'.head? := fun e => he e.symm
          simp only [he, he', not_false_eq_true, if_true]
          exact hc l' r'
    cases hv : versionNumbers l r with
    | inl v =>
      have : versionNumbers r l = .inl (-v) := by
        revert hv
        unfold versionNumbers
        cases hdl : atChar isDigit l <;> cases hdr : atChar isDigit r <;> simp
        all_goals try (rintro rfl; rfl)
        · intro h
          rcases Nat.lt_trichotomy (wcstoumax l).1 (wcstoumax r).1 with g | g | g
          · have g' := Nat.not_lt.2 (Nat.le_of_lt g)
            simp [g, g'] at h ⊢; omega
          · simp [g] at h
          · have g' := Nat.not_lt.2 (Nat.le_of_lt g)
            simp [g, g'] at h ⊢; omega
      rw [compareVersions_inl hv, compareVersions_inl this]
      simp
    | inr p =>
      obtain ⟨l', r'⟩ := p
      have : versionNumbers r l = .inr (r', l') := by
        revert hv
        unfold versionNumbers
        cases hdl : atChar isDigit l <;> cases hdr : atChar isDigit r <;> simp
        · rintro rfl rfl; exact ⟨rfl, rfl⟩
        · intro h
          rcases Nat.lt_trichotomy (wcstoumax l).1 (wcstoumax r).1 with g | g | g
          · have g' := Nat.not_lt.2 (Nat.le_of_lt g)
            simp [g, g'] at h
          · simp [g] at h ⊢
            exact ⟨h.2, h.1⟩
          · simp [g] at h
      rw [compareVersions_inr hv, compareVersions_inr this]
      exact chars l' r' (versionNumbers_length hv)

end Yash.TestBuiltin
