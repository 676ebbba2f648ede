import Verif.Expand.FieldSplit
import Verif.Expand.FieldSplitSpec
import Verif.Expand.QuoteProps
/-! # Properties C14 and C15: field splitting -/
set_option autoImplicit false
set_option linter.unusedSimpArgs false

namespace Yash.Expand

open Spec

theorem cut_ne_nil {α : Type} (p : α → Bool) (l : List α) : cut p l ≠ [] := by
  cases l with
  | nil => simp [cut]
  | cons a l =>
    simp only [cut]
    split
    · simp
    · split <;> simp

theorem cut_append {α : Type} (p : α → Bool) {f : List α} (hf : ∀ a ∈ f, p a = false) (l : List α) :
    ∃ h t, cut p l = h :: t ∧ cut p (f ++ l) = (f ++ h) :: t := by
  induction f with
  | nil =>
    obtain ⟨h, t, ht⟩ := List.exists_cons_of_ne_nil (cut_ne_nil p l)
    exact ⟨h, t, ht, by simpa using ht⟩
  | cons a f ih =>
    obtain ⟨h, t, h1, h2⟩ := ih (fun x hx => hf x (by simp [hx]))
    refine ⟨h, t, h1, ?_⟩
    have : p a = false := hf a (by simp)
    simp [cut, this, h2]

section Loop

variable (ws nonIfs : CChar → Bool)

/-- The fields of the loop as sublists. -/
def loopL (r : CWord) (afterfield : Bool) : List CWord :=
  let r1 := r.dropWhile ws
  let f := r1.takeWhile nonIfs
  if hf : f ≠ [] then f :: loopL (r1.dropWhile nonIfs) true
  else
    let pre : List CWord := if afterfield then [] else [[]]
    match hr : r1 with
    | [] => pre
    | _ :: r' => pre ++ loopL r' false
termination_by r.length
decreasing_by
  · have h1 := length_dropWhile_le ws r
    have h2 : ((r.dropWhile ws).takeWhile nonIfs).length +
        ((r.dropWhile ws).dropWhile nonIfs).length = (r.dropWhile ws).length := by
      rw [← List.length_append, List.takeWhile_append_dropWhile]
    have h3 : ((r.dropWhile ws).takeWhile nonIfs).length ≠ 0 := by
      intro h; exact hf (List.eq_nil_of_length_eq_zero h)
    show ((r.dropWhile ws).dropWhile nonIfs).length < r.length
    omega
  · have h1 := length_dropWhile_le ws r
    have : (r.dropWhile ws).length = r'.length + 1 := by
      have : r.dropWhile ws = _ :: r' := hr
      rw [this]; simp
    omega

theorem drop_takeWhile_length {α : Type} (p : α → Bool) :
    ∀ l : List α, l.drop (l.takeWhile p).length = l.dropWhile p
  | [] => by simp
  | a :: l => by
    rw [List.takeWhile_cons, List.dropWhile_cons]
    split
    · simpa using drop_takeWhile_length p l
    · simp

theorem take_takeWhile_length {α : Type} (p : α → Bool) :
    ∀ l : List α, l.take (l.takeWhile p).length = l.takeWhile p
  | [] => by simp
  | a :: l => by
    rw [List.takeWhile_cons]
    split
    · simpa using take_takeWhile_length p l
    · simp

theorem loopL_end (r : CWord) (after : Bool) (h : r.dropWhile ws = []) :
    loopL ws nonIfs r after = if after then [] else [[]] := by
  unfold loopL
  rw [dif_neg (by simp [h])]
  dsimp only
  split
  · rfl
  · rename_i heq; rw [h] at heq; cases heq

theorem loopL_sep (r : CWord) (after : Bool) (c : CChar) (r' : CWord)
    (h : r.dropWhile ws = c :: r') (hc : nonIfs c = false) :
    loopL ws nonIfs r after = (if after then [] else [[]]) ++ loopL ws nonIfs r' false := by
  conv => lhs; unfold loopL
  rw [dif_neg (by simp [h, hc])]
  dsimp only
  split
  · rename_i heq; rw [h] at heq; cases heq
  · rename_i heq; rw [h] at heq; cases heq; rfl

/-- The span loop computes the sublists of `loopL`; spans are well formed. -/
theorem extractLoop_spec (w r : CWord) (index : Nat) (after : Bool) (dest : List Span)
    (hr : r = w.drop index) (hi : index ≤ w.length) :
    ∃ sp tail, extractLoop ws nonIfs r index after dest = (dest ++ sp, tail) ∧
      sp.map (slice w) = loopL ws nonIfs r after ∧
      (∀ s ∈ sp, s.1 ≤ s.2 ∧ s.2 ≤ w.length) ∧
      index ≤ tail ∧ tail ≤ w.length ∧ (∀ c ∈ w.drop tail, ws c = true) ∧
      (∀ s ∈ sp, s.1 ≠ s.2 → s.2 ≤ tail) := by
  fun_induction extractLoop ws nonIfs r index after dest with
  | case1 r index after dest r1 i1 f hf ih =>
    have hr1 : r1 = w.drop i1 := by
      show r.dropWhile ws = w.drop (index + (r.takeWhile ws).length)
      rw [← List.drop_drop, ← hr, drop_takeWhile_length]
    have hlen : (r.takeWhile ws).length + r1.length = r.length := by
      rw [← List.length_append, List.takeWhile_append_dropWhile]
    have hrl : r.length = w.length - index := by rw [hr]; simp
    have hfl : f.length ≤ r1.length := by
      have : f.length + (r1.dropWhile nonIfs).length = r1.length := by
        rw [← List.length_append, List.takeWhile_append_dropWhile]
      omega
    have hi1 : i1 + f.length ≤ w.length := by simp only [i1]; omega
    obtain ⟨sp, tail, h1, h2, h3, h4, h5, h6, h7⟩ := ih (by
      rw [← List.drop_drop, ← hr1, drop_takeWhile_length]) hi1
    refine ⟨(i1, i1 + f.length) :: sp, tail, by simpa using h1, ?_, ?_, ?_, h5, h6, ?_⟩
    · conv => rhs; unfold loopL
      have : slice w (i1, i1 + f.length) = f := by
        simp only [slice]
        rw [← hr1]
        simpa using take_takeWhile_length nonIfs r1
      simp only [List.map_cons, this, h2]
      rw [dif_pos hf]
    · intro s hs
      rcases List.mem_cons.1 hs with rfl | hs
      · exact ⟨by simp, hi1⟩
      · exact h3 s hs
    · simp only [i1] at h4; omega
    · intro s hs
      rcases List.mem_cons.1 hs with rfl | hs
      · exact fun _ => h4
      · exact h7 s hs
  | case2 r index after dest r1 i1 f hf dest' hn =>
    have hlen : (r.takeWhile ws).length + (r.dropWhile ws).length = r.length := by
      rw [← List.length_append, List.takeWhile_append_dropWhile]
    have hrl : r.length = w.length - index := by rw [hr]; simp
    have hrw : r.takeWhile ws = r := by
      have h1 : r.takeWhile ws ++ r.dropWhile ws = r := List.takeWhile_append_dropWhile
      have h2 : r.dropWhile ws = [] := hn
      rw [h2, List.append_nil] at h1
      exact h1
    refine ⟨if after then [] else [(i1, i1)], index, ?_, ?_, ?_, Nat.le_refl _, hi, ?_, ?_⟩
    · simp only [dest']; split <;> simp
    · have hs : slice w (i1, i1) = [] := by simp [slice]
      rw [loopL_end _ _ _ _ hn]
      cases after <;> simp [hs]
    · intro s hs
      have : s = (i1, i1) := by
        split at hs
        · cases hs
        · simpa using hs
      subst this
      refine ⟨Nat.le_refl _, ?_⟩
      simp only [i1]; omega
    · rw [← hr, ← hrw]; exact fun c hc => Util.of_mem_takeWhile hc
    · intro s hs
      have : s = (i1, i1) := by
        split at hs
        · cases hs
        · simpa using hs
      subst this
      simp
  | case3 r index after dest r1 i1 f hf dest' c r' hn ih =>
    have hr1 : c :: r' = w.drop i1 := by
      have : r.dropWhile ws = c :: r' := hn
      show c :: r' = w.drop (index + (r.takeWhile ws).length)
      rw [← List.drop_drop, ← hr, drop_takeWhile_length, this]
    have hlen : (r.takeWhile ws).length + (r.dropWhile ws).length = r.length := by
      rw [← List.length_append, List.takeWhile_append_dropWhile]
    have hrl : r.length = w.length - index := by rw [hr]; simp
    have hl : (r.dropWhile ws).length = r'.length + 1 := by
      have : r.dropWhile ws = c :: r' := hn
      rw [this]; simp
    have hi1 : i1 + 1 ≤ w.length := by simp only [i1]; omega
    obtain ⟨sp, tail, h1, h2, h3, h4, h5, h6, h7⟩ := ih (by
      rw [← List.drop_drop, ← hr1]; simp) hi1
    refine ⟨(if after then [] else [(i1, i1)]) ++ sp, tail, ?_, ?_, ?_, ?_, h5, h6, ?_⟩
    · rw [h1]; simp only [dest']; split <;> simp
    · have hs : slice w (i1, i1) = [] := by simp [slice]
      have hc : nonIfs c = false := by
        cases hc : nonIfs c with
        | false => rfl
        | true =>
          exfalso; apply hf
          show ((r.dropWhile ws).takeWhile nonIfs) ≠ []
          rw [show r.dropWhile ws = _ from hn]
          simp [hc]
      rw [loopL_sep _ _ _ _ c r' hn hc]
      cases after <;> simp [hs, h2]
    · intro s hs
      rcases List.mem_append.1 hs with hs | hs
      · have : s = (i1, i1) := by
          split at hs
          · cases hs
          · simpa using hs
        subst this
        exact ⟨Nat.le_refl _, by simp only; omega⟩
      · exact h3 s hs
    · simp only [i1] at h4; omega
    · intro s hs
      rcases List.mem_append.1 hs with hs | hs
      · have : s = (i1, i1) := by
          split at hs
          · cases hs
          · simpa using hs
        subst this
        simp
      · exact h7 s hs

end Loop

/-- The loop agrees with the specification, `after` telling whether the first piece may be empty. -/
def specFrom (sep white : CChar → Bool) (r : CWord) (after : Bool) : List CWord :=
  match cut sep r with
  | [] => []
  | p :: ps =>
    (match pieceFields white p with
     | [] => if after then [] else [[]]
     | fs => fs) ++
    ps.flatMap (fun piece => match pieceFields white piece with
      | [] => [[]]
      | fs => fs)

theorem loopL_spec (L : Locale) (ifs : List Char) (r : CWord) (after : Bool) :
    loopL (isIfsWhitespace L ifs) (isNonIfsChar ifs) r after =
      specFrom (isSep L.space ifs) (isWhite L.space ifs) r after := by
  have hifs : ∀ c, isIfsChar ifs c = decide (splittable ifs c) := by
    intro ⟨c, o, q, m⟩
    simp only [isIfsChar, splittable]
    cases o <;> cases q <;> cases m <;> simp
  have hws : isIfsWhitespace L ifs = isWhite L.space ifs := by
    funext c; simp [isIfsWhitespace, isWhite, hifs]
  rw [hws]
  have hsep : ∀ c, isSep L.space ifs c = (!isNonIfsChar ifs c && !isWhite L.space ifs c) := by
    intro c
    simp only [isNonIfsChar, hifs, isWhite, isSep]
    cases decide (splittable ifs c) <;> cases L.space c.1 <;> rfl
  have hwn : ∀ c, isWhite L.space ifs c = true → isNonIfsChar ifs c = false := by
    intro c
    simp only [isNonIfsChar, hifs, isWhite]
    cases decide (splittable ifs c) <;> cases L.space c.1 <;> simp
  generalize isWhite L.space ifs = ws at *
  generalize isSep L.space ifs = sep at *
  generalize isNonIfsChar ifs = non at *
  clear hws hifs
  -- white space in front does not matter
  have hskip : ∀ (a r : CWord) (after : Bool), (∀ c ∈ a, ws c = true) →
      specFrom sep ws (a ++ r) after = specFrom sep ws r after := by
    intro a r after ha
    obtain ⟨h, t, h1, h2⟩ := cut_append sep (f := a)
      (fun c hc => by rw [hsep, ha c hc]; simp) r
    simp only [specFrom, h1, h2]
    congr 1
    have : pieceFields ws (a ++ h) = pieceFields ws h := by
      clear h1 h2
      induction a with
      | nil => rfl
      | cons c a ih =>
        have hc := ha c (by simp)
        simp only [pieceFields, List.cons_append, cut, hc, if_true]
        simpa [pieceFields] using ih (fun x hx => ha x (by simp [hx]))
    rw [this]
  fun_induction loopL ws non r after with
  | case1 r after r1 f hf ih =>
    rw [ih]
    have hr : r = r.takeWhile ws ++ r1 := List.takeWhile_append_dropWhile.symm
    have hr1 : r1 = f ++ r1.dropWhile non := List.takeWhile_append_dropWhile.symm
    conv => rhs; rw [hr, hskip _ _ _ (fun c hc => Util.of_mem_takeWhile hc), hr1]
    have hfx : ∀ c ∈ f, non c = true := fun c hc => Util.of_mem_takeWhile hc
    obtain ⟨h, t, h1, h2⟩ := cut_append sep (f := f)
      (fun c hc => by rw [hsep, hfx c hc]; simp) (r1.dropWhile non)
    simp only [specFrom, h1, h2]
    have hfw : ∀ c ∈ f, ws c = false := by
      intro c hc
      cases hw : ws c with
      | false => rfl
      | true => have := hwn c hw; rw [hfx c hc] at this; cases this
    have hrun : pieceFields ws (f ++ h) = f :: pieceFields ws h := by
      -- `h` is empty or starts with white space
      have hh : h = [] ∨ ∃ c h', h = c :: h' ∧ ws c = true := by
        cases hd : r1.dropWhile non with
        | nil => rw [hd] at h1; simp [cut] at h1; exact Or.inl h1.1
        | cons c l =>
          rw [hd] at h1
          have hnc : non c = false := by
            have := List.head_dropWhile_not (l := r1) non (by rw [hd]; simp)
            simpa [hd] using this
          cases hw : ws c with
          | true =>
            have hs : sep c = false := by rw [hsep, hw]; simp
            obtain ⟨h', t', h3⟩ := List.exists_cons_of_ne_nil (cut_ne_nil sep l)
            simp only [cut, hs, h3] at h1
            simp at h1
            exact Or.inr ⟨c, h', h1.1.symm, hw⟩
          | false =>
            have hs : sep c = true := by rw [hsep, hw, hnc]; rfl
            simp [cut, hs] at h1
            exact Or.inl h1.1
      obtain ⟨h', t', h3, h4⟩ := cut_append ws hfw h
      simp only [pieceFields, h3, h4]
      have hnil : h' = [] := by
        rcases hh with rfl | ⟨c, h'', rfl, hc⟩
        · simp [cut] at h3; exact h3.1
        · simp [cut, hc] at h3; exact h3.1
      subst hnil
      simp [hf]
    rw [hrun]
    simp only [List.cons_append]
    congr 2
    cases pieceFields ws h <;> simp
  | case2 r after r1 f hf pre hn =>
    have hr : r = r.takeWhile ws ++ r1 := List.takeWhile_append_dropWhile.symm
    have hr1 : r1 = [] := hn
    conv => rhs; rw [hr, hskip _ _ _ (fun c hc => Util.of_mem_takeWhile hc), hr1]
    cases after <;> simp [pre, specFrom, cut, pieceFields]
  | case3 r after r1 f hf pre c r' hn ih =>
    have hr : r = r.takeWhile ws ++ r1 := List.takeWhile_append_dropWhile.symm
    have hr1 : r1 = c :: r' := hn
    conv => rhs; rw [hr, hskip _ _ _ (fun c hc => Util.of_mem_takeWhile hc), hr1]
    have hwc : ws c = false := by
      have := List.head_dropWhile_not (l := r) ws (by rw [show r.dropWhile ws = _ from hn]; simp)
      simpa [show r.dropWhile ws = _ from hn] using this
    have hnc : non c = false := by
      cases hc : non c with
      | false => rfl
      | true =>
        exfalso
        apply hf
        show ((r.dropWhile ws).takeWhile non) ≠ []
        rw [show r.dropWhile ws = _ from hn]
        simp [hc]
    have hs : sep c = true := by rw [hsep, hwc, hnc]; rfl
    rw [ih]
    obtain ⟨h, t, h1⟩ := List.exists_cons_of_ne_nil (cut_ne_nil sep r')
    cases after <;> simp [pre, specFrom, cut, hs, h1, pieceFields]

/-- Fields of nonzero length have nonempty spans and vice versa. -/
theorem slice_eq_nil_iff {w : CWord} {s : Span} (h : s.1 ≤ s.2 ∧ s.2 ≤ w.length) :
    slice w s = [] ↔ s.1 = s.2 := by
  simp only [slice]
  rw [← List.length_eq_zero_iff]
  simp
  omega

/-- **C14.** The fields produced for a word are those of the POSIX rules, for every word, every
assignment of character categories, every IFS and both settings of `emptylastfield`. -/
theorem C14_fieldsplit_spec (L : Locale) (emptylast : Bool) (ifs : List Char) (w : CWord) :
    fieldsplit1 L emptylast ifs w = fields L.space emptylast ifs w := by
  obtain ⟨sp, tail, h1, h2, h3, _⟩ :=
    extractLoop_spec (isIfsWhitespace L ifs) (isNonIfsChar ifs) w w 0 false [] (by simp)
      (Nat.zero_le _)
  rw [List.nil_append] at h1
  have hall : sp.map (slice w) = allFields L.space ifs w := by
    rw [h2, loopL_spec]
    obtain ⟨h, t, h1⟩ := List.exists_cons_of_ne_nil (cut_ne_nil (isSep L.space ifs) w)
    simp only [specFrom, allFields, h1, List.flatMap_cons]
    rfl
  simp only [fieldsplit1, extractFields, h1, fields, ← hall]
  have hlast : (sp.map (slice w)).getLast? = some [] ↔ ∃ a b, sp.getLast? = some (a, b) ∧ a = b := by
    rw [List.getLast?_map, Option.map_eq_some_iff]
    constructor
    · rintro ⟨⟨a, b⟩, hl, hs⟩
      exact ⟨a, b, hl, (slice_eq_nil_iff (h3 _ (List.mem_of_getLast? hl))).1 hs⟩
    · rintro ⟨a, b, hl, hab⟩
      exact ⟨(a, b), hl, (slice_eq_nil_iff (h3 _ (List.mem_of_getLast? hl))).2 hab⟩
  by_cases hc : emptylast = false ∨ sp.length = 1
  · have hc' : (!emptylast || sp.length == 1) = true := by
      cases emptylast <;> simp_all
    simp only [hc', if_true]
    by_cases hl : (sp.map (slice w)).getLast? = some []
    · obtain ⟨a, b, hl', hab⟩ := hlast.1 hl
      rw [if_pos ⟨hl, by simpa using hc⟩]
      simp [hl', hab, List.map_dropLast]
    · rw [if_neg (fun h => hl h.1)]
      cases hg : sp.getLast? with
      | none => rfl
      | some s =>
        obtain ⟨a, b⟩ := s
        have : a ≠ b := fun hab => hl (hlast.2 ⟨a, b, hg, hab⟩)
        simp [this]
  · have hc' : (!emptylast || sp.length == 1) = false := by
      cases emptylast <;> simp_all
    rw [if_neg (by simp [hc'])]
    rw [if_neg (fun h => hc (by simpa using h.2))]

/-- A whole list of words is split word by word, with the default IFS if `$IFS` is unset. -/
theorem C14_fieldsplit_list (L : Locale) (emptylast : Bool) (ifs : Option (List Char))
    (ws : List CWord) :
    fieldsplit L emptylast ifs ws = ws.flatMap (fields L.space emptylast (ifs.getD [' ', '\t', '\n'])) := by
  simp only [fieldsplit, defaultIfs]
  congr 1
  funext w
  exact C14_fieldsplit_spec _ _ _ _

theorem pieces_skip {sep : CChar → Prop} {w : CWord} {fs : List CWord} {s : CWord}
    (hs : ∀ c ∈ s, sep c) (h : Pieces sep w fs) : Pieces sep (s ++ w) fs := by
  cases h with
  | done t ht => exact .done _ (fun c hc => (List.mem_append.1 hc).elim (hs c) (ht c))
  | field t f rest fs ht hf hr =>
    rw [← List.append_assoc, ← List.append_assoc]
    exact .field _ _ _ _ (fun c hc => (List.mem_append.1 hc).elim (hs c) (ht c)) hf hr

theorem pieces_dropLast {sep : CChar → Prop} {w : CWord} {fs : List CWord}
    (h : Pieces sep w fs) (hl : fs.getLast? = some []) : Pieces sep w fs.dropLast := by
  induction h with
  | done s hs => simp at hl
  | field s f rest fs hs hf hr ih =>
    cases fs with
    | nil =>
      simp at hl
      subst hl
      rw [List.append_nil]
      exact pieces_skip hs (by simpa using hr)
    | cons g gs =>
      simp only [List.dropLast_cons₂]
      exact .field s f rest _ hs hf (ih (by simpa using hl))

theorem loopL_pieces (ws non : CChar → Bool) (sep : CChar → Prop)
    (h1 : ∀ c, ws c = true → sep c) (h2 : ∀ c, non c = true ↔ ¬ sep c) (r : CWord) (after : Bool) :
    Pieces sep r (loopL ws non r after) := by
  fun_induction loopL ws non r after with
  | case1 r after r1 f hf ih =>
    have hr : r = r.takeWhile ws ++ f ++ r1.dropWhile non := by
      rw [List.append_assoc, show f ++ r1.dropWhile non = r1 from List.takeWhile_append_dropWhile]
      exact List.takeWhile_append_dropWhile.symm
    rw [hr]
    exact .field _ _ _ _ (fun c hc => h1 c (Util.of_mem_takeWhile hc))
      (fun c hc => (h2 c).1 (Util.of_mem_takeWhile hc)) ih
  | case2 r after r1 f hf pre hn =>
    have hr : r = r.takeWhile ws ++ r1 := List.takeWhile_append_dropWhile.symm
    have hr1 : r1 = [] := hn
    rw [hr, hr1]
    refine pieces_skip (fun c hc => h1 c (Util.of_mem_takeWhile hc)) ?_
    cases after
    · exact .field [] [] [] [] (by simp) (by simp) (.done [] (by simp))
    · exact .done [] (by simp)
  | case3 r after r1 f hf pre c r' hn ih =>
    have hr : r = r.takeWhile ws ++ r1 := List.takeWhile_append_dropWhile.symm
    have hr1 : r1 = c :: r' := hn
    rw [hr, hr1]
    refine pieces_skip (fun c hc => h1 c (Util.of_mem_takeWhile hc)) ?_
    have hc : sep c := by
      apply Classical.byContradiction
      intro hc
      apply hf
      show ((r.dropWhile ws).takeWhile non) ≠ []
      rw [show r.dropWhile ws = _ from hn]
      simp [(h2 c).2 hc]
    have := pieces_skip (s := [c]) (by simpa using hc) ih
    cases after
    · exact .field [] [] _ _ (by simp) (by simp) this
    · exact this

/-- **C15.** The fields are disjoint contiguous pieces of the word in order; exactly the splittable
IFS characters are left out. -/
theorem C15_fieldsplit_pieces (L : Locale) (emptylast : Bool) (ifs : List Char) (w : CWord) :
    Pieces (splittable ifs) w (fieldsplit1 L emptylast ifs w) := by
  rw [C14_fieldsplit_spec]
  have hall : allFields L.space ifs w =
      loopL (isIfsWhitespace L ifs) (isNonIfsChar ifs) w false := by
    rw [loopL_spec]
    obtain ⟨h, t, h1⟩ := List.exists_cons_of_ne_nil (cut_ne_nil (isSep L.space ifs) w)
    simp only [specFrom, allFields, h1, List.flatMap_cons]
    rfl
  have hifs : ∀ c, isIfsChar ifs c = decide (splittable ifs c) := by
    intro ⟨c, o, q, m⟩
    simp only [isIfsChar, splittable]
    cases o <;> cases q <;> cases m <;> simp
  have hp := loopL_pieces (isIfsWhitespace L ifs) (isNonIfsChar ifs) (splittable ifs)
    (by intro c h; simp [isIfsWhitespace, hifs] at h; exact h.1)
    (by intro c; simp [isNonIfsChar, hifs]) w false
  rw [← hall] at hp
  simp only [fields]
  split
  · rename_i h; exact pieces_dropLast hp h.1
  · exact hp

/-- **C15**, consequence: a nonempty word without splittable characters (for example a fully quoted
one) is exactly one field. -/
theorem C15_unsplittable_word_is_one_field (L : Locale) (emptylast : Bool) (ifs : List Char)
    (w : CWord) (hw : w ≠ []) (h : ∀ c ∈ w, ¬ splittable ifs c) :
    fieldsplit1 L emptylast ifs w = [w] := by
  have hp := C15_fieldsplit_pieces L emptylast ifs w
  rw [C14_fieldsplit_spec] at hp ⊢
  have h1 : cut (isSep L.space ifs) w = [w] := by
    obtain ⟨a, t, h1, h2⟩ := cut_append (isSep L.space ifs) (f := w)
      (fun c hc => by simp [isSep, h c hc]) []
    simp [cut] at h1
    simpa [h1.1, h1.2] using h2
  have h2 : cut (isWhite L.space ifs) w = [w] := by
    obtain ⟨a, t, h1, h2⟩ := cut_append (isWhite L.space ifs) (f := w)
      (fun c hc => by simp [isWhite, h c hc]) []
    simp [cut] at h1
    simpa [h1.1, h1.2] using h2
  simp [fields, allFields, h1, pieceFields, h2, hw]

/-- **C15**, the returned end pointer: what follows it is IFS white space, and no nonempty field
extends beyond it. -/
theorem C15_tail_is_whitespace (L : Locale) (emptylast : Bool) (ifs : List Char) (w : CWord) :
    let r := extractFields L emptylast ifs w
    r.2 ≤ w.length ∧ (∀ c ∈ w.drop r.2, splittable ifs c ∧ L.space c.1 = true) ∧
    ∀ s ∈ r.1, s.1 ≠ s.2 → s.2 ≤ r.2 := by
  obtain ⟨sp, tail, h1, h2, h3, h4, h5, h6, h7⟩ :=
    extractLoop_spec (isIfsWhitespace L ifs) (isNonIfsChar ifs) w w 0 false [] (by simp)
      (Nat.zero_le _)
  rw [List.nil_append] at h1
  have hifs : ∀ c, isIfsChar ifs c = decide (splittable ifs c) := by
    intro ⟨c, o, q, m⟩
    simp only [isIfsChar, splittable]
    cases o <;> cases q <;> cases m <;> simp
  simp only [extractFields, h1]
  refine ⟨h5, fun c hc => ?_, fun s hs => h7 s ?_⟩
  · have := h6 c hc
    simp [isIfsWhitespace, hifs] at this
    exact this
  · revert hs
    split
    · split
      · split
        · exact fun hs => (List.dropLast_sublist _).subset hs
        · exact id
      · exact id
    · exact id

/-! ## Non-vacuity: the examples of the source comment (expand.c:1592-1600) -/

/-- All characters from an unquoted expansion. -/
def softWord (s : String) : CWord := s.toList.map (fun c => (c, { origin := .soft }))

example : (fields cLocale.space true [' ', '-'] (softWord " - abc - 123 - ")).map text =
    [[], ['a', 'b', 'c'], ['1', '2', '3'], []] := by decide
example : (fields cLocale.space false [' ', '-'] (softWord "-abc-123-")).map text =
    [[], ['a', 'b', 'c'], ['1', '2', '3']] := by decide
example : (fields cLocale.space true [' ', '-'] (softWord "  ")).map text = [] := by decide
example : (fields cLocale.space true [' ', '-'] (softWord "abc - - 123")).map text =
    [['a', 'b', 'c'], [], ['1', '2', '3']] := by decide
/-- Quoted blanks do not separate. -/
example : (fields cLocale.space true [' ', '-']
    (softWord "a b" ++ [(' ', { origin := .soft, quoted := true })] ++ softWord "c")).map text =
    [['a'], ['b', ' ', 'c']] := by decide

end Yash.Expand
