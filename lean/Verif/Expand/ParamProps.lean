import Verif.Expand.ParamSpec
import Verif.Expand.WordProps
/-!
# Property C44: parameter expansion with operators and indices
-/
set_option autoImplicit false

namespace Yash.Expand

open Spec (quotedFields Missing IsNull choose chooseValue InRange IsPosition)
open Syntax (Word WordUnit Param ParamType ParamOp)

/-! ## Positions -/

theorem choose_range {α : Type} (lo hi : Int) (l : List α) (k : Nat) :
    ((l.zipIdx k).filter fun x => decide (lo ≤ x.2 ∧ (x.2 : Int) ≤ hi)).map Prod.fst =
      (l.drop (lo - k).toNat).take (hi + 1 - (if lo ≤ k then (k : Int) else lo)).toNat := by
  induction l generalizing k with
  | nil => simp
  | cons a l ih =>
    rw [List.zipIdx_cons, List.filter_cons]
    have ih := ih (k + 1)
    simp only [Int.natCast_add, Int.natCast_one] at ih
    by_cases h1 : lo ≤ k
    · have e0 : (lo - (k : Int)).toNat = 0 := by omega
      have e1 : (lo - ((k : Int) + 1)).toNat = 0 := by omega
      have h1' : lo ≤ (k : Int) + 1 := by omega
      rw [e1, if_pos h1', List.drop_zero] at ih
      rw [e0, if_pos h1, List.drop_zero]
      by_cases h2 : (k : Int) ≤ hi
      · rw [if_pos (by simp [h1, h2]), List.map_cons, ih]
        have : (hi + 1 - (k : Int)).toNat = (hi + 1 - ((k : Int) + 1)).toNat + 1 := by omega
        rw [this, List.take_succ_cons]
      · rw [if_neg (by simp [h2]), ih]
        have e2 : (hi + 1 - (k : Int)).toNat = 0 := by omega
        have e3 : (hi + 1 - ((k : Int) + 1)).toNat = 0 := by omega
        rw [e2, e3]; rfl
    · rw [if_neg (by simp [h1]), ih, if_neg h1]
      have e0 : (lo - (k : Int)).toNat = (lo - ((k : Int) + 1)).toNat + 1 := by omega
      rw [e0, List.drop_succ_cons]
      congr 2
      split <;> omega

theorem choose_congr {α : Type} (p q : Nat → Prop) [DecidablePred p] [DecidablePred q] (l : List α)
    (h : ∀ i, 1 ≤ i → i ≤ l.length → (p i ↔ q i)) : choose p l = choose q l := by
  unfold choose
  congr 1
  apply List.filter_congr
  intro x hx
  have := List.snd_lt_of_mem_zipIdx hx
  have h2 := List.le_snd_of_mem_zipIdx hx
  have := h x.2 (by omega) (by omega)
  simp [this]

theorem choose_none {α : Type} (p : Nat → Prop) [DecidablePred p] (l : List α)
    (h : ∀ i, 1 ≤ i → i ≤ l.length → ¬ p i) : choose p l = [] := by
  rw [choose_congr p (fun _ => False) l (fun i h1 h2 => by simp [h i h1 h2])]
  simp [choose]

theorem choose_between {α : Type} (l : List α) (lo hi : Int) :
    choose (fun p : Nat => lo ≤ p ∧ (p : Int) ≤ hi) l =
      (l.drop (lo - 1).toNat).take (hi + 1 - (if lo ≤ 1 then (1 : Int) else lo)).toNat := choose_range lo hi l 1

theorem inRange_iff (n : Nat) (i j a : Int) (h : Spec.firstPosition n i = some a) (p : Nat) :
    InRange n i j p ↔ a ≤ p ∧ (p : Int) ≤ Spec.lastPosition n j := by
  unfold InRange
  rw [h]
  constructor
  · rintro ⟨b, hb, h⟩
    cases hb
    exact h
  · exact fun h => ⟨a, rfl, h⟩

theorem cut_eq {α : Type} (l : List α) (a L S T : Int)
    (hS : S = (if a ≤ 1 then 0 else a - 1) ∨ ((l.length : Int) ≤ S ∧ (l.length : Int) ≤ a - 1))
    (hT : T = L ∨ (T ≤ S ∧ L ≤ S) ∨ ((l.length : Int) ≤ T ∧ (l.length : Int) ≤ L)) :
    (l.drop S.toNat).take (T - S).toNat = choose (fun p : Nat => a ≤ p ∧ (p : Int) ≤ L) l := by
  rw [choose_between]
  rcases hS with hS | ⟨h1, h2⟩
  · have e : (a - 1).toNat = S.toNat := by subst hS; split <;> omega
    rw [e]
    have e2 : (L + 1 - if a ≤ 1 then (1 : Int) else a) = L - S := by subst hS; split <;> omega
    rw [e2]
    have hS0 : 0 ≤ S := by subst hS; split <;> omega
    rcases hT with rfl | ⟨h1, h2⟩ | ⟨h1, h2⟩
    · rfl
    · have e3 : (T - S).toNat = 0 := by omega
      have e4 : (L - S).toNat = 0 := by omega
      rw [e3, e4]
    · rw [List.take_of_length_le, List.take_of_length_le]
      · rw [List.length_drop]; omega
      · rw [List.length_drop]; omega
  · rw [List.drop_eq_nil_of_le (by omega), List.drop_eq_nil_of_le (by omega)]
    simp

theorem choose_inRange {α : Type} (l : List α) (n : Nat) (i j a : Int) (h : Spec.firstPosition n i = some a) :
    choose (InRange n i j) l = choose (fun p : Nat => a ≤ p ∧ (p : Int) ≤ Spec.lastPosition n j) l :=
  choose_congr _ _ _ fun p _ _ => inRange_iff n i j a h p

theorem choose_isPosition {α : Type} (l : List α) (n : Nat) (i a : Int) (h : Spec.firstPosition n i = some a) :
    choose (IsPosition n i) l = choose (fun p : Nat => a ≤ p ∧ (p : Int) ≤ a) l :=
  choose_congr _ _ _ fun p _ _ => by
    unfold IsPosition
    rw [h, Option.some.injEq]
    omega

theorem first_eq (n : Nat) (i : Int) (h : i ≠ 0) :
    ∃ a, Spec.firstPosition n i = some a ∧ a = if i > 0 then i else n + 1 + i := by
  unfold Spec.firstPosition
  by_cases h1 : i > 0
  · exact ⟨i, by rw [if_pos h1], by rw [if_pos h1]⟩
  · exact ⟨n + 1 + i, by rw [if_neg h1, if_pos (by omega)], by rw [if_neg h1]⟩

/-- Two indices select a range of an array. -/
theorem trimArray_range {vs : List (List Char)} (hn : (vs.length : Int) ≤ ssizeMax) (i j : Int) :
    trimArray vs (arrayRange vs.length (startIndex i) j).1 (arrayRange vs.length (startIndex i) j).2 =
      choose (InRange vs.length i j) vs := by
  by_cases h0 : i = 0
  · subst h0
    rw [choose_none _ _ (by
      intro p _ _
      rintro ⟨a, ha, _⟩
      simp [Spec.firstPosition] at ha)]
    have hs : startIndex 0 = ssizeMax := rfl
    have h1 : (arrayRange vs.length ssizeMax j).1 = vs.length := by
      simp only [arrayRange]
      rw [if_pos (by decide)]
      split <;> omega
    rw [hs, trimArray, h1, List.drop_eq_nil_of_le (by simp)]
    simp
  · obtain ⟨a, ha, ha'⟩ := first_eq vs.length i h0
    rw [choose_inRange vs vs.length i j a ha, trimArray]
    apply cut_eq
    · simp only [arrayRange, startIndex, h0, if_false]
      subst ha'
      split <;> split <;> split <;> split <;> omega
    · simp only [arrayRange, Spec.lastPosition]
      generalize (if startIndex i ≥ 0 then (if startIndex i > (vs.length : Int) then (vs.length : Int) else startIndex i)
        else if startIndex i + (vs.length : Int) < 0 then 0 else startIndex i + (vs.length : Int)) = S
      split <;> split <;> split <;> omega

/-- One index selects an element of an array. -/
theorem trimArray_position {vs : List (List Char)} (hn : (vs.length : Int) ≤ ssizeMax) (i : Int) :
    trimArray vs (arrayRange vs.length (startIndex i) (defaultEnd i)).1 (arrayRange vs.length (startIndex i) (defaultEnd i)).2 =
      choose (IsPosition vs.length i) vs := by
  by_cases h0 : i = 0
  · subst h0
    rw [choose_none _ _ (by
      intro p _ _ ha
      simp [IsPosition, Spec.firstPosition] at ha)]
    have hs : startIndex 0 = ssizeMax := rfl
    have h1 : ∀ j, (arrayRange vs.length ssizeMax j).1 = vs.length := by
      intro j
      simp only [arrayRange]
      rw [if_pos (by decide)]
      split <;> omega
    rw [hs, trimArray, h1, List.drop_eq_nil_of_le (by simp)]
    simp
  · obtain ⟨a, ha, ha'⟩ := first_eq vs.length i h0
    rw [choose_isPosition vs vs.length i a ha, trimArray]
    have hmax : 0 < ssizeMax := by decide
    apply cut_eq
    · simp only [arrayRange, startIndex, h0, if_false]
      subst ha'
      split <;> split <;> split <;> split <;> omega
    · simp only [arrayRange, startIndex, defaultEnd, h0, if_false]
      subst ha'
      by_cases hi : i > 0
      · have h1 : i ≠ -1 := by omega
        simp only [hi, h1, if_true, if_false]
        repeat' split
        all_goals omega
      · simp only [hi, if_false]
        have h2 : ¬ i ≥ 0 := by omega
        simp only [h2, if_false]
        by_cases h1 : i = -1
        · subst h1
          simp only [if_true]
          repeat' split
          all_goals omega
        · simp only [h1, if_false]
          repeat' split
          all_goals omega

/-- Two indices select characters of a string. -/
theorem trimString_range {v : List Char} (hn : (v.length : Int) ≤ ssizeMax) (i j : Int) (hj : j ≤ ssizeMax) :
    trimString v (startIndex i) j = choose (InRange v.length i j) v := by
  have hmax : 0 < ssizeMax := by decide
  by_cases h0 : i = 0
  · subst h0
    rw [choose_none _ _ (by
      intro p _ _
      rintro ⟨a, ha, _⟩
      simp [Spec.firstPosition] at ha)]
    have hs : startIndex 0 = ssizeMax := rfl
    rw [hs]
    unfold trimString
    rw [if_neg (by omega)]
    have h1 : ¬ ssizeMax < 0 := by omega
    simp only [h1, if_false]
    generalize (if j < 0 then j + (v.length : Int) + 1 else j) = T
    split
    · rfl
    · rw [List.drop_eq_nil_of_le (by omega)]; simp
  · obtain ⟨a, ha, ha'⟩ := first_eq v.length i h0
    rw [choose_inRange v v.length i j a ha]
    unfold trimString
    split
    · rename_i h
      have hi : i = 1 := by
        have := h.1
        unfold startIndex at this
        repeat' split at this
        all_goals omega
      subst hi
      rw [← cut_eq v a (Spec.lastPosition v.length j) 0 ssizeMax]
      · rw [List.take_of_length_le (by simp; omega)]; rfl
      · left; subst ha'; rfl
      · right; right
        rw [h.2]
        unfold Spec.lastPosition
        rw [if_pos (by omega)]
        omega
    · have key : ∀ S T, (S = (if a ≤ 1 then 0 else a - 1) ∨ ((v.length : Int) ≤ S ∧ (v.length : Int) ≤ a - 1)) →
          T = Spec.lastPosition v.length j →
          (if T ≤ S then [] else (v.drop S.toNat).take (T - S).toNat) =
            choose (fun p : Nat => a ≤ p ∧ (p : Int) ≤ Spec.lastPosition v.length j) v := by
        intro S T hS hT
        rw [← cut_eq v a (Spec.lastPosition v.length j) S T hS (Or.inl hT)]
        split
        · have : (T - S).toNat = 0 := by omega
          rw [this]; simp
        · rfl
      apply key
      · simp only [startIndex, h0, if_false]
        subst ha'
        repeat' split
        all_goals omega
      · unfold Spec.lastPosition
        repeat' split
        all_goals omega

/-- One index selects a character of a string. -/
theorem trimString_position {v : List Char} (hn : (v.length : Int) ≤ ssizeMax) (i : Int) (hi : i ≤ ssizeMax) :
    trimString v (startIndex i) (defaultEnd i) = choose (IsPosition v.length i) v := by
  have hmax : 1 < ssizeMax := by decide
  by_cases h0 : i = 0
  · subst h0
    rw [choose_none _ _ (by
      intro p _ _ ha
      simp [IsPosition, Spec.firstPosition] at ha)]
    rfl
  · obtain ⟨a, ha, ha'⟩ := first_eq v.length i h0
    rw [choose_isPosition v v.length i a ha]
    unfold trimString
    rw [if_neg (by
      simp only [startIndex, defaultEnd, h0, if_false]
      intro h
      have h1 := h.1
      have h2 := h.2
      repeat' split at h1
      all_goals repeat' split at h2
      all_goals omega)]
    have key : ∀ S T, (S = (if a ≤ 1 then 0 else a - 1) ∨ ((v.length : Int) ≤ S ∧ (v.length : Int) ≤ a - 1)) →
        (T = a ∨ (T ≤ S ∧ a ≤ S) ∨ ((v.length : Int) ≤ T ∧ (v.length : Int) ≤ a)) →
        (if T ≤ S then [] else (v.drop S.toNat).take (T - S).toNat) =
          choose (fun p : Nat => a ≤ p ∧ (p : Int) ≤ a) v := by
      intro S T hS hT
      rw [← cut_eq v a a S T hS hT]
      split
      · have : (T - S).toNat = 0 := by omega
        rw [this]; simp
      · rfl
    apply key
    · simp only [startIndex, h0, if_false]
      subst ha'
      repeat' split
      all_goals omega
    · simp only [startIndex, defaultEnd, h0, if_false]
      subst ha'
      by_cases hi : i > 0
      · have h1 : i ≠ -1 := by omega
        simp only [hi, h1, if_true, if_false]
        repeat' split
        all_goals omega
      · simp only [hi, if_false]
        by_cases h1 : i = -1
        · subst h1
          simp only [if_true]
          repeat' split
          all_goals omega
        · simp only [h1, if_false]
          repeat' split
          all_goals omega

/-! ## Parameters in double quotes -/

/-- `"${…}"` -/
def quotedParam (p : Param) : Word := [.str ['"'], .param p, .str ['"']]

theorem markValues_inert (vs : List (List Char)) : ∀ w ∈ markValues true vs, ∀ c ∈ w, Inert c := by
  intro w hw c hc
  simp only [markValues, List.mem_map] at hw
  obtain ⟨v, _, rfl⟩ := hw
  simp only [List.mem_append, List.mem_map] at hc
  rcases hc with ⟨a, _, rfl⟩ | hc
  · simp [Inert]
  · split at hc
    · simp only [List.mem_cons, List.not_mem_nil, or_false] at hc
      subst hc
      simp [Inert]
    · cases hc

theorem markValues_full (vs : List (List Char)) (h : vs.length > 1) : ∀ w ∈ markValues true vs, w ≠ [] := by
  intro w hw
  simp only [markValues, List.mem_map] at hw
  obtain ⟨v, _, rfl⟩ := hw
  rw [decide_eq_true h]
  simp

theorem quotedParam_ok {σ : Type} (E : Env σ) (hL : E.locale.Ok) (hR : E.long.Ok) (p : Param) (s s' : σ)
    (vs : List (List Char)) (h : expandParam E true p s = .ok s' (markValues true vs)) :
    expandMultiple E (quotedParam p) s = .ok s' vs := by
  have hopen : ∀ n, expandString E s .single .word .lit true n {} ['"'] = some (({} : St).dquote .lit) := by
    intro n
    simp [expandString, expandTilde, stringLoop]
  have hclose : ∀ n st, expandString E s' .single .word .lit false n st ['"'] = some (st.dquote .lit) := by
    intro n st
    simp [expandString, stringLoop]
  have hfour : expandFour E .single .word .lit (quotedParam p) s = .ok s'
      ((((({} : St).dquote .lit).noFields (markValues true vs)).merge (markValues true vs)).dquote .lit).finish := by
    simp only [expandFour, quotedParam, expandUnits, expandUnit, bind, M.bind, hopen, M.check, pure, M.pure]
    have : ((({} : St).dquote .lit).indq || decide (Quoting.word = .literal) || CC.lit.quoted) = true := rfl
    rw [this, h]
    simp only [hclose, M.pure]
  generalize hws : ((((({} : St).dquote .lit).noFields (markValues true vs)).merge (markValues true vs)).dquote .lit).finish = ws
    at hfour
  have hi := markValues_inert vs
  have ht := markValues_text vs
  have hf := markValues_full vs
  have hlen : (markValues true vs).length = vs.length := by simp [markValues]
  generalize markValues true vs = ms at hws hi ht hf hlen
  rw [← ht]
  match ms, hws, hi, hf, hlen with
  | [], hws, _, _, _ =>
    have : ws = [] := by
      rw [← hws]
      rfl
    rw [this] at hfour
    exact expandMultiple_inert E hL hR _ s s' [] hfour (by simp)
  | [m], hws, hi, _, _ =>
    have : ws = [('"', { origin := .literal, quotation := true }) :: m ++ [('"', { origin := .literal, quotation := true })]] := by
      rw [← hws]
      simp only [St.dquote, St.noFields, St.merge, List.isEmpty_cons, Bool.false_eq_true, if_false, St.add, if_true,
        Bool.false_and, St.finish, List.nil_append]
      rfl
    rw [this] at hfour
    rw [expandMultiple_inert E hL hR _ s s' _ hfour]
    · congr 1
      rw [List.map_cons, List.map_cons, quoteRemoval_append]
      simp [quoteRemoval]
    · intro w hw
      simp only [List.mem_cons, List.not_mem_nil, or_false] at hw
      subst hw
      refine ⟨by simp, ?_⟩
      intro c hc
      simp only [List.cons_append, List.mem_cons, List.mem_append, List.not_mem_nil, or_false] at hc
      rcases hc with rfl | hc | rfl
      · simp [Inert]
      · exact hi m List.mem_cons_self c hc
      · simp [Inert]
  | m :: m' :: ms, hws, hi, hf, hlen =>
    have hf := hf (by rw [← hlen]; simp)
    have : ws = (('"', { origin := .literal, quotation := true }) :: m) :: (m' :: ms).dropLast ++
        [(m' :: ms).getLast (by simp) ++ [('"', { origin := .literal, quotation := true })]] := by
      rw [← hws]
      simp only [St.dquote, St.noFields, St.merge, List.isEmpty_cons, Bool.false_eq_true, if_false, St.add, if_true,
        Bool.false_and, St.finish, List.nil_append, List.singleton_append]
    rw [this] at hfour
    rw [expandMultiple_inert E hL hR _ s s' _ hfour]
    · congr 1
      rw [List.map_append, List.map_cons, List.map_cons, List.map_cons, List.map_nil, quoteRemoval_append]
      simp only [quoteRemoval, if_true, List.append_nil, List.cons_append]
      congr 1
      rw [show [quoteRemoval .none ((m' :: ms).getLast (by simp))] = [(m' :: ms).getLast (by simp)].map (quoteRemoval .none) from rfl,
        ← List.map_append, List.dropLast_concat_getLast]
    · intro w hw
      simp only [List.cons_append, List.mem_cons, List.mem_append, List.not_mem_nil, or_false] at hw
      rcases hw with rfl | hw | rfl
      · refine ⟨by simp, ?_⟩
        intro c hc
        rcases List.mem_cons.1 hc with rfl | hc
        · simp [Inert]
        · exact hi m List.mem_cons_self c hc
      · have hm := List.dropLast_subset _ hw
        exact ⟨hf w (List.mem_cons_of_mem _ hm), hi w (List.mem_cons_of_mem _ hm)⟩
      · refine ⟨by simp, ?_⟩
        intro c hc
        rcases List.mem_append.1 hc with hc | hc
        · exact hi _ (List.mem_cons_of_mem _ (List.getLast_mem _)) c hc
        · simp only [List.mem_cons, List.not_mem_nil, or_false] at hc
          subst hc
          simp [Inert]

theorem quotedParam_fail {σ : Type} (E : Env σ) (p : Param) (s s' : σ) (h : expandParam E true p s = .fail s') :
    expandMultiple E (quotedParam p) s = .fail s' := by
  have hopen : ∀ n, expandString E s .single .word .lit true n {} ['"'] = some (({} : St).dquote .lit) := by
    intro n
    simp [expandString, expandTilde, stringLoop]
  simp only [expandMultiple, expandFour, quotedParam, expandUnits, expandUnit, bind, M.bind, hopen, M.check, pure, M.pure]
  have : ((({} : St).dquote .lit).indq || decide (Quoting.word = .literal) || CC.lit.quoted) = true := rfl
  rw [this, h]

/-! ## Indices -/

/-- `${x[i]}`, `${x[i,j]}`. -/
def indexedParam (x : List Char) (i j : Word) : Param := .mk {} (.name x) i j [] []

/-- The word is an index with value `i`. -/
structure IsIndex {σ : Type} (E : Env σ) (s : σ) (w : Word) (i : Int) (s' : σ) : Prop where
  nonempty : w ≠ []
  eval : ∃ s1 t, expandSingle E .none .word .none w s = .ok s1 t ∧ parseIndexType t = .none ∧ E.index s1 t = (s', some i)
  range : i ≤ ssizeMax

/-- The values are shorter than `SSIZE_MAX`. -/
def FitsAll : VarValue → Prop
  | .scalar v => (v.length : Int) ≤ ssizeMax
  | .array vs => (vs.length : Int) ≤ ssizeMax
  | .concat vs => (vs.length : Int) ≤ ssizeMax
  | _ => True

theorem finishParam_eq {σ : Type} (E : Env σ) (t : ParamType) (ht : t.number = false) (s : σ) (v : VarValue)
    (values : List (List Char)) (c : Bool)
    (hv : values = Spec.unquotedValues v) (hc : c = isConcat v) :
    finishParam E t true c values s = .ok s (markValues true (quotedFields (E.getvar s "IFS".toList) v)) := by
  subst hv hc
  generalize hifs : "IFS".toList = ifs
  simp only [finishParam, ht, Bool.false_eq_true, if_false, hifs]
  cases v <;> simp [isConcat, Spec.unquotedValues, quotedFields, concatenate_eq]

theorem trimString_nil (i j : Int) : trimString [] i j = [] := by
  unfold trimString
  split
  · rfl
  · simp

theorem isNull_nil (i : Nat → Prop) [DecidablePred i] : choose i ([] : List Char) = [] := rfl

theorem bind_ok {σ α β : Type} (m : M σ α) (f : α → M σ β) (s s' : σ) (a : α) (h : m s = .ok s' a) :
    M.bind m f s = f a s' := by
  simp only [M.bind, h]

theorem bind_fail {σ α β : Type} (m : M σ α) (f : α → M σ β) (s s' : σ) (h : m s = .fail s') :
    M.bind m f s = .fail s' := by
  simp only [M.bind, h]

theorem act_ok {σ α : Type} (f : σ → σ × Option α) (s s' : σ) (a : α) (h : f s = (s', some a)) :
    M.act f s = .ok s' a := by
  simp only [M.act, h]

/-- **C44**, one index: `"${x[i]}"` is the character or the element at that position, counted from one or (negative)
from the end; nothing if there is none. -/
theorem C44_index {σ : Type} (E : Env σ) (hL : E.locale.Ok) (hR : E.long.Ok) (s s' : σ) (x : List Char) (w : Word)
    (i : Int) (hi : IsIndex E s w i s') (hset : E.get s' x ≠ .notFound ∨ E.unsetOk = true) (hfit : FitsAll (E.get s' x)) :
    expandMultiple E (quotedParam (indexedParam x w [])) s =
      .ok s' (quotedFields (E.getvar s' "IFS".toList) (chooseValue (fun n => IsPosition n i) (E.get s' x))) := by
  obtain ⟨hne, ⟨s1, t, h1, h2, h3⟩, hrange⟩ := hi
  apply quotedParam_ok E hL hR
  have hemp : w.isEmpty = false := by cases w with
    | nil => exact absurd rfl hne
    | cons => rfl
  simp only [expandSingle, bind, M.bind] at h1
  simp only [indexedParam, expandParam, hemp, Bool.false_eq_true, if_false, bind, M.bind]
  cases hu : expandUnits E .none .word .lit true {} w s with
  | abort => rw [hu] at h1; cases h1
  | fail => rw [hu] at h1; cases h1
  | ok s0 st =>
    rw [hu] at h1
    simp only at h1 ⊢
    rw [h1]
    simp only [h2, ne_eq, not_true_eq_false, if_false, List.isEmpty_nil, if_true, pure]
    rw [bind_ok _ _ _ _ _ (act_ok _ _ _ _ h3)]
    simp only [M.pure, expandBase]
    have hsel : ∃ a b, select (E.get s' x) .none (startIndex i) (defaultEnd i) =
        ⟨Spec.unquotedValues (chooseValue (fun n => IsPosition n i) (E.get s' x)),
          isConcat (chooseValue (fun n => IsPosition n i) (E.get s' x)), a, b⟩ := by
      cases hv : E.get s' x with
      | notFound => simp only [select, chooseValue, Spec.unquotedValues, isConcat, reduceCtorEq, if_false, trimString_nil]; exact ⟨_, _, rfl⟩
      | scalar v =>
        rw [hv] at hfit
        simp only [select, chooseValue, Spec.unquotedValues, isConcat, reduceCtorEq, if_false, decide_false]
        rw [trimString_position hfit i hrange]
        exact ⟨_, _, rfl⟩
      | array vs =>
        rw [hv] at hfit
        simp only [select, chooseValue, Spec.unquotedValues, isConcat, reduceCtorEq, if_false, decide_false]
        rw [trimArray_position hfit i]
        exact ⟨_, _, rfl⟩
      | concat vs =>
        rw [hv] at hfit
        simp only [select, chooseValue, Spec.unquotedValues, isConcat, reduceCtorEq, if_false, decide_false]
        rw [trimArray_position hfit i]
        exact ⟨_, _, rfl⟩
    obtain ⟨a, b, hsel⟩ := hsel
    rw [hsel]
    have hun : ∀ vs, (countsUnset (E.get s' x) ({} : ParamType).colon vs && !E.unsetOk) = false := by
      intro vs
      rcases hset with h | h
      · simp [countsUnset, h]
      · simp [h]
    simp only [hun]
    exact finishParam_eq E {} rfl s' _ _ _ rfl rfl

/-- **C44**, two indices: `"${x[i,j]}"` is what is at the positions `i` to `j`. -/
theorem C44_slice {σ : Type} (E : Env σ) (hL : E.locale.Ok) (hR : E.long.Ok) (s s' s'' : σ) (x : List Char) (w w' : Word)
    (i j : Int) (hi : IsIndex E s w i s') (hj : IsIndex E s' w' j s'')
    (hset : E.get s'' x ≠ .notFound ∨ E.unsetOk = true) (hfit : FitsAll (E.get s'' x)) :
    expandMultiple E (quotedParam (indexedParam x w w')) s =
      .ok s'' (quotedFields (E.getvar s'' "IFS".toList) (chooseValue (fun n => InRange n i j) (E.get s'' x))) := by
  obtain ⟨hne, ⟨s1, t, h1, h2, h3⟩, hrange⟩ := hi
  obtain ⟨hne', ⟨s2, t', h1', h2', h3'⟩, hrange'⟩ := hj
  apply quotedParam_ok E hL hR
  have hemp : w.isEmpty = false := by cases w with
    | nil => exact absurd rfl hne
    | cons => rfl
  have hemp' : w'.isEmpty = false := by cases w' with
    | nil => exact absurd rfl hne'
    | cons => rfl
  simp only [expandSingle, bind, M.bind] at h1 h1'
  simp only [indexedParam, expandParam, hemp, hemp', Bool.false_eq_true, if_false, bind, M.bind]
  cases hu : expandUnits E .none .word .lit true {} w s with
  | abort => rw [hu] at h1; cases h1
  | fail => rw [hu] at h1; cases h1
  | ok s0 st =>
    rw [hu] at h1
    simp only at h1 ⊢
    rw [h1]
    simp only [h2, ne_eq, not_true_eq_false, if_false]
    rw [bind_ok _ _ _ _ _ (act_ok _ _ _ _ h3)]
    cases hu' : expandUnits E .none .word .lit true {} w' s' with
    | abort => rw [hu'] at h1'; cases h1'
    | fail => rw [hu'] at h1'; cases h1'
    | ok s3 st' =>
      rw [hu'] at h1'
      rw [bind_ok _ _ _ _ _ hu', bind_ok _ _ _ _ _ h1', bind_ok _ _ _ _ _ (act_ok _ _ _ _ h3')]
      simp only [pure, M.pure, expandBase]
      have hsel : ∃ a b, select (E.get s'' x) .none (startIndex i) j =
          ⟨Spec.unquotedValues (chooseValue (fun n => InRange n i j) (E.get s'' x)),
            isConcat (chooseValue (fun n => InRange n i j) (E.get s'' x)), a, b⟩ := by
        cases hv : E.get s'' x with
        | notFound => simp only [select, chooseValue, Spec.unquotedValues, isConcat, reduceCtorEq, if_false, trimString_nil]; exact ⟨_, _, rfl⟩
        | scalar v =>
          rw [hv] at hfit
          simp only [select, chooseValue, Spec.unquotedValues, isConcat, reduceCtorEq, if_false, decide_false]
          rw [trimString_range hfit i j hrange']
          exact ⟨_, _, rfl⟩
        | array vs =>
          rw [hv] at hfit
          simp only [select, chooseValue, Spec.unquotedValues, isConcat, reduceCtorEq, if_false, decide_false]
          rw [trimArray_range hfit i j]
          exact ⟨_, _, rfl⟩
        | concat vs =>
          rw [hv] at hfit
          simp only [select, chooseValue, Spec.unquotedValues, isConcat, reduceCtorEq, if_false, decide_false]
          rw [trimArray_range hfit i j]
          exact ⟨_, _, rfl⟩
      obtain ⟨a, b, hsel⟩ := hsel
      rw [hsel]
      have hun : ∀ vs, (countsUnset (E.get s'' x) ({} : ParamType).colon vs && !E.unsetOk) = false := by
        intro vs
        rcases hset with h | h
        · simp [countsUnset, h]
        · simp [h]
      simp only [hun]
      exact finishParam_eq E {} rfl s'' _ _ _ rfl rfl

/-! ## Missing values -/

/-- A word that is text without quoting characters. -/
def textWord (w : List Char) : Word := if w = [] then [] else [.str w]

/-- The text has no double quotes and no backslashes, and does not begin with a tilde. -/
structure PlainText (w : List Char) : Prop where
  dquote : '"' ∉ w
  bslash : '\\' ∉ w
  tilde : w.head? ≠ some '~'

/-- `${xw}`, `${x:w}`, … with the operator between `x` and `w`. -/
def testedParam (op : ParamOp) (colon : Bool) (x w : List Char) : Param :=
  .mk { op := op, colon := colon } (.name x) [] [] [] (textWord w)

theorem stringLoop_plain {σ : Type} (E : Env σ) (s : σ) (cc : CC) (n : Bool) (w : List Char) (h1 : '"' ∉ w) (h2 : '\\' ∉ w)
    (st : St) (hq : st.indq = false) : stringLoop E s .single .dqparam cc n st w = some (st.addAll w cc) := by
  induction w generalizing st with
  | nil => simp [stringLoop, St.addAll]
  | cons c w ih =>
    simp only [List.mem_cons, not_or] at h1 h2
    rw [stringLoop.eq_def]
    have hc1 : ¬ c = '"' := fun h => h1.1 h.symm
    have hc2 : ¬ c = '\\' := fun h => h2.1 h.symm
    simp only [hc1, hc2, hq, reduceCtorEq, decide_false, Bool.false_and, Bool.and_false, Bool.false_eq_true, if_false,
      Bool.or_false]
    rw [ih h1.2 h2.2 _ (by simp [St.add, hq])]
    simp [St.add, St.addAll]

theorem expandUnits_plain {σ : Type} (E : Env σ) (s : σ) (cc : CC) (w : List Char) (h : PlainText w) :
    expandUnits E .single .dqparam cc true {} (textWord w) s = .ok s (({} : St).addAll w cc) := by
  unfold textWord
  split
  · rename_i hw
    subst hw
    rfl
  · have ht : expandTilde E s .single false w = none := by
      cases w with
      | nil => rfl
      | cons c w =>
        have : ¬ c = '~' := by
          intro hc
          exact h.tilde (by simp [hc])
        unfold expandTilde
        split
        · rename_i heq
          cases heq
          exact absurd rfl this
        · rfl
    have : expandString E s .single .dqparam cc true false {} w = some (({} : St).addAll w cc) := by
      unfold expandString
      simp only [Bool.true_and]
      rw [if_pos (by decide), ht]
      exact stringLoop_plain E s cc false w h.dquote h.bslash {} rfl
    simp only [expandUnits, expandUnit, bind, M.bind, List.isEmpty_nil, Bool.not_true, this, M.check, pure, M.pure]

theorem countsUnset_eq (colon : Bool) (v : VarValue) :
    countsUnset v colon (Spec.unquotedValues v) = decide (Missing colon v) := by
  cases v <;> cases colon <;> simp [countsUnset, Missing, IsNull, Spec.unquotedValues] <;> congr

theorem quoteRemoval_text (e : Escaping) (he : e = .none) (w : List Char) (cc : CC) (hc : cc.quotation = false) :
    quoteRemoval e (w.map fun c => (c, cc)) = w := by
  subst he
  induction w with
  | nil => rfl
  | cons c w ih => simp [quoteRemoval, shouldEscape, hc, ih]

/-- **C44**: `"${x-w}"` and `"${x:-w}"` are `w` if the variable is missing, and otherwise the variable. -/
theorem C44_default {σ : Type} (E : Env σ) (hL : E.locale.Ok) (hR : E.long.Ok) (s : σ) (colon : Bool) (x w : List Char)
    (hw : PlainText w) (hfit : Fits (E.get s x)) :
    expandMultiple E (quotedParam (testedParam .minus colon x w)) s =
      .ok s (if Missing colon (E.get s x) then [w] else quotedFields (E.getvar s "IFS".toList) (E.get s x)) := by
  apply quotedParam_ok E hL hR
  simp only [testedParam, expandParam, List.isEmpty_nil, if_true, bind, M.bind, pure, M.pure, expandBase]
  rw [select_all _ hfit]
  simp only [countsUnset_eq]
  by_cases hm : Missing colon (E.get s x)
  · simp only [hm, decide_true, if_true, M.bind, expandUnits_plain E s _ w hw]
    simp [St.addAll, St.finish, markValues, M.pure]
  · simp only [hm, decide_false, Bool.false_eq_true, if_false]
    exact finishParam_eq E _ rfl s _ _ _ rfl rfl

/-- **C44**: `"${x+w}"` and `"${x:+w}"` are `w` unless the variable is missing. -/
theorem C44_alternative {σ : Type} (E : Env σ) (hL : E.locale.Ok) (hR : E.long.Ok) (s : σ) (colon : Bool) (x w : List Char)
    (hw : PlainText w) (hfit : Fits (E.get s x)) :
    expandMultiple E (quotedParam (testedParam .plus colon x w)) s =
      .ok s (if Missing colon (E.get s x) then quotedFields (E.getvar s "IFS".toList) (E.get s x) else [w]) := by
  apply quotedParam_ok E hL hR
  simp only [testedParam, expandParam, List.isEmpty_nil, if_true, bind, M.bind, pure, M.pure, expandBase]
  rw [select_all _ hfit]
  simp only [countsUnset_eq]
  by_cases hm : Missing colon (E.get s x)
  · simp only [hm, decide_true, if_true]
    exact finishParam_eq E _ rfl s _ _ _ rfl rfl
  · simp only [hm, decide_false, Bool.false_eq_true, if_false, if_true, M.bind, expandUnits_plain E s _ w hw]
    simp [St.addAll, St.finish, markValues, M.pure]

/-- **C44**: `"${x?w}"` and `"${x:?w}"` are an error if the variable is missing. -/
theorem C44_error {σ : Type} (E : Env σ) (hL : E.locale.Ok) (hR : E.long.Ok) (s : σ) (colon : Bool) (x w : List Char)
    (hw : PlainText w) (hfit : Fits (E.get s x)) :
    expandMultiple E (quotedParam (testedParam .error colon x w)) s =
      if Missing colon (E.get s x) then .fail s else .ok s (quotedFields (E.getvar s "IFS".toList) (E.get s x)) := by
  by_cases hm : Missing colon (E.get s x)
  · rw [if_pos hm]
    apply quotedParam_fail E
    simp only [testedParam, expandParam, List.isEmpty_nil, if_true, bind, M.bind, pure, M.pure, expandBase]
    rw [select_all _ hfit]
    simp only [countsUnset_eq, hm, decide_true, if_true, M.bind, expandUnits_plain E s _ w hw, M.fail]
  · rw [if_neg hm]
    apply quotedParam_ok E hL hR
    simp only [testedParam, expandParam, List.isEmpty_nil, if_true, bind, M.bind, pure, M.pure, expandBase]
    rw [select_all _ hfit]
    simp only [countsUnset_eq, hm, decide_false, Bool.false_eq_true, if_false]
    exact finishParam_eq E _ rfl s _ _ _ rfl rfl

/-- What `"${x=w}"` does with a variable: if it is missing, it is assigned `w`. -/
def Spec.assigned {σ : Type} (E : Env σ) (s : σ) (colon : Bool) (x w : List Char) : Res σ (List (List Char)) :=
  if Missing colon (E.get s x) then
    if E.get s x = .notFound ∨ E.get s x = .scalar [] then
      if (E.set s x w).2 then .ok (E.set s x w).1 [w] else .fail (E.set s x w).1
    else .fail s
  else .ok s (quotedFields (E.getvar s "IFS".toList) (E.get s x))

/-- **C44**: `"${x=w}"` and `"${x:=w}"` assign `w` to the variable if it is missing (and not an array). -/
theorem C44_assign {σ : Type} (E : Env σ) (hL : E.locale.Ok) (hR : E.long.Ok) (s : σ) (colon : Bool) (x w : List Char)
    (hw : PlainText w) (hx : E.isName x = true) (hfit : Fits (E.get s x)) :
    expandMultiple E (quotedParam (testedParam .assign colon x w)) s = Spec.assigned E s colon x w := by
  unfold Spec.assigned
  by_cases hm : Missing colon (E.get s x)
  · rw [if_pos hm]
    by_cases hv : E.get s x = .notFound ∨ E.get s x = .scalar []
    · rw [if_pos hv]
      have hdo : expandParam E true (testedParam .assign colon x w) s =
          (match E.set s x w with
          | (s', true) => .ok s' (markValues true [w])
          | (s', false) => .fail s') := by
        simp only [testedParam, expandParam, List.isEmpty_nil, if_true, bind, M.bind, pure, M.pure, expandBase]
        rw [select_all _ hfit]
        have ha : assignable E (.name x) (E.get s x) 0 ssizeMax = true := by
          rcases hv with h | h <;> rw [h] <;> simp [assignable, hx]
        simp only [countsUnset_eq, hm, decide_true, if_true, ha]
        rw [bind_ok _ _ _ _ _ (expandUnits_plain E s _ w hw)]
        have hs : single E .none (({} : St).addAll w .lit) s = .ok s w := by
          simp only [single, St.addAll, St.finish, Bool.false_and, Bool.false_eq_true, if_false, List.nil_append, joinFields]
          rw [quoteRemoval_text _ rfl _ _ rfl]
        rw [bind_ok _ _ _ _ _ hs]
        have hc : isConcat (E.get s x) = false := by
          rcases hv with h | h <;> rw [h] <;> rfl
        have hassign : assignParam E (baseName (.name x)) (E.get s x) 0 w = M.attempt fun s => E.set s x w := by
          rcases hv with h | h <;> rw [h] <;> rfl
        rw [hassign, hc]
        simp only [M.bind, M.attempt]
        rcases E.set s x w with ⟨s', _ | _⟩
        · rfl
        · simp [finishParam]
      rcases hr : E.set s x w with ⟨s', _ | _⟩
      · rw [hr] at hdo
        exact quotedParam_fail E _ _ _ hdo
      · rw [hr] at hdo
        exact quotedParam_ok E hL hR _ _ _ _ hdo
    · rw [if_neg hv]
      apply quotedParam_fail E
      simp only [testedParam, expandParam, List.isEmpty_nil, if_true, bind, M.bind, pure, M.pure, expandBase]
      rw [select_all _ hfit]
      have ha : assignable E (.name x) (E.get s x) 0 ssizeMax = false := by
        have h1 : ¬ ((1 : Int) = ssizeMax) := by decide
        rcases hm with h | ⟨_, h | h | h | h | h⟩
        · exact absurd (Or.inl h) hv
        · exact absurd (Or.inr h) hv
        all_goals rw [h]; simp [assignable, h1]
      simp only [countsUnset_eq, hm, decide_true, if_true, ha, Bool.false_eq_true, if_false, M.fail]
  · rw [if_neg hm]
    apply quotedParam_ok E hL hR
    simp only [testedParam, expandParam, List.isEmpty_nil, if_true, bind, M.bind, pure, M.pure, expandBase]
    rw [select_all _ hfit]
    simp only [countsUnset_eq, hm, decide_false, Bool.false_eq_true, if_false]
    exact finishParam_eq E _ rfl s _ _ _ rfl rfl

/-- `${#x}` -/
def lengthParam (x : List Char) : Param := .mk { number := true } (.name x) [] [] [] []

/-- **C44**: `"${#x}"` is the number of characters, for each of the fields of `"${x}"`. -/
theorem C44_length {σ : Type} (E : Env σ) (hL : E.locale.Ok) (hR : E.long.Ok) (s : σ) (x : List Char)
    (hset : E.get s x ≠ .notFound ∨ E.unsetOk = true) (hfit : Fits (E.get s x)) :
    expandMultiple E (quotedParam (lengthParam x)) s = .ok s
      ((quotedFields (E.getvar s "IFS".toList) (E.get s x)).map fun v => (toString v.length).toList) := by
  apply quotedParam_ok E hL hR
  simp only [lengthParam, expandParam, List.isEmpty_nil, if_true, bind, M.bind, pure, M.pure, expandBase]
  rw [select_all _ hfit]
  have hu : (countsUnset (E.get s x) false (Spec.unquotedValues (E.get s x)) && !E.unsetOk) = false := by
    rcases hset with h | h
    · simp [countsUnset, h]
    · simp [h]
  simp only [hu]
  have hd : ∀ n : Nat, decimal n = (toString n).toList := by
    intro n
    simp [decimal, toString, Nat.repr]
  generalize hifs : "IFS".toList = ifs
  simp only [finishParam, hifs, Bool.false_eq_true, if_false]
  cases hv : E.get s x <;> simp [isConcat, Spec.unquotedValues, quotedFields, concatenate_eq, hd]

/-! Examples: `x` is `a *`, and an index is always one. -/

example : expandMultiple exampleEnv (quotedParam (testedParam .minus true ['y'] ['u', '\''])) () =
    .ok () [['u', '\'']] := by
  rw [C44_default exampleEnv cLocale_ok long64_ok () true ['y'] ['u', '\''] ⟨by decide, by decide, by decide⟩ trivial]
  rfl
example : expandMultiple exampleEnv (quotedParam (testedParam .minus true ['x'] ['u'])) () = .ok () [['a', ' ', '*']] := by
  rw [C44_default exampleEnv cLocale_ok long64_ok () true ['x'] ['u'] ⟨by decide, by decide, by decide⟩ trivial]
  rfl
example : expandMultiple exampleEnv (quotedParam (testedParam .plus false ['x'] ['u'])) () = .ok () [['u']] := by
  rw [C44_alternative exampleEnv cLocale_ok long64_ok () false ['x'] ['u'] ⟨by decide, by decide, by decide⟩ trivial]
  rfl
example : expandMultiple exampleEnv (quotedParam (testedParam .error false ['y'] ['u'])) () = .fail () := by
  rw [C44_error exampleEnv cLocale_ok long64_ok () false ['y'] ['u'] ⟨by decide, by decide, by decide⟩ trivial]
  rfl
example : expandMultiple exampleEnv (quotedParam (testedParam .assign false ['y'] ['u'])) () = .ok () [['u']] := by
  rw [C44_assign exampleEnv cLocale_ok long64_ok () false ['y'] ['u'] ⟨by decide, by decide, by decide⟩ rfl trivial]
  rfl
example : expandMultiple exampleEnv (quotedParam (lengthParam ['@'])) () = .ok () [['3'], ['0']] := by
  rw [C44_length exampleEnv cLocale_ok long64_ok () ['@'] (Or.inr rfl) (show ((2 : Nat) : Int) ≤ ssizeMax by decide)]
  rfl

/-- The word is an index in `exampleEnv`. -/
theorem exampleIndex : IsIndex exampleEnv () [.str ['1']] 1 () where
  nonempty := by simp
  eval := ⟨(), ['1'], by
    simp [expandSingle, expandUnits, expandUnit, expandString, stringLoop, bind, M.bind, M.check, pure, M.pure, single,
      St.add, St.finish, joinFields, quoteRemoval, shouldEscape, CC.lit], rfl, rfl⟩
  range := by decide

example : expandMultiple exampleEnv (quotedParam (indexedParam ['x'] [.str ['1']] [])) () = .ok () [['a']] := by
  rw [C44_index exampleEnv cLocale_ok long64_ok () () ['x'] _ 1 exampleIndex (Or.inr rfl)
    (show ((3 : Nat) : Int) ≤ ssizeMax by decide)]
  rfl
example : expandMultiple exampleEnv (quotedParam (indexedParam ['@'] [.str ['1']] [.str ['1']])) () =
    .ok () [['p', ' ', 'q']] := by
  rw [C44_slice exampleEnv cLocale_ok long64_ok () () () ['@'] _ _ 1 1 exampleIndex exampleIndex (Or.inr rfl)
    (show ((2 : Nat) : Int) ≤ ssizeMax by decide)]
  rfl

end Yash.Expand
