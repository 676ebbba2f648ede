import Verif.Variable.Lemmas
import Verif.Variable.Spec
/-! # Invariants of the operations on variables -/
set_option autoImplicit false

namespace Yash.Variable

open Spec

/-! ### Levels and indices -/

theorem get_eq_find {α : Type} (m : Map α) (n : Name) :
    get m n = (m.find? fun e => e.1 = n).map (·.2) := by
  induction m with
  | nil => rfl
  | cons e m ih =>
    rw [get, List.find?_cons]
    by_cases h : e.1 = n
    · simp [h]
    · simp [h, ih]

theorem get_mem {α : Type} (m : Map α) (n : Name) (v : α) (h : get m n = some v) : (n, v) ∈ m := by
  rw [get_eq_find, Option.map_eq_some_iff] at h
  obtain ⟨e, he, rfl⟩ := h
  have h1 := List.find?_some he
  have h2 := List.mem_of_find?_eq_some he
  simp only [decide_eq_true_eq] at h1
  rw [← h1]
  exact h2

theorem varAt_column (sh : Shell) (d : Nat) (n : Name) (o : Var) :
    varAt sh d n = some o ↔ (column n sh.scopes).reverse[d]? = some (some o) := by
  unfold varAt column
  rw [← List.map_reverse, List.getElem?_map]
  cases sh.scopes.reverse[d]? with
  | none => simp
  | some s => simp [get_eq_find]

theorem varAt_none (sh : Shell) (d : Nat) (n : Name) :
    varAt sh d n = none ↔ ∀ o, (column n sh.scopes).reverse[d]? ≠ some (some o) := by
  constructor
  · intro h o ho
    rw [← varAt_column, h] at ho
    cases ho
  · intro h
    cases hv : varAt sh d n with
    | none => rfl
    | some o => exact absurd ((varAt_column _ _ _ _).mp hv) (h o)

theorem tempAt_temps (sh : Shell) (d : Nat) :
    TempAt sh d ↔ (temps sh.scopes).reverse[d]? = some true := by
  unfold TempAt temps
  rw [← List.map_reverse, List.getElem?_map, Option.map_eq_some_iff]

theorem plainAt_temps (sh : Shell) (d : Nat) :
    PlainAt sh d ↔ (temps sh.scopes).reverse[d]? = some false := by
  unfold PlainAt temps
  rw [← List.map_reverse, List.getElem?_map, Option.map_eq_some_iff]

/-- An index of a list and the level of the same element. -/
theorem level_index {α : Type} (l : List α) (i : Nat) (a : α) :
    l[i]? = some a ↔ i < l.length ∧ l.reverse[l.length - 1 - i]? = some a := by
  constructor
  · intro h
    have hi : i < l.length := by
      rw [List.getElem?_eq_some_iff] at h
      exact h.1
    refine ⟨hi, ?_⟩
    rw [List.getElem?_reverse (by omega)]
    rw [show l.length - 1 - (l.length - 1 - i) = i from by omega]
    exact h
  · rintro ⟨hi, h⟩
    rw [List.getElem?_reverse (by omega)] at h
    rw [show l.length - 1 - (l.length - 1 - i) = i from by omega] at h
    exact h

theorem index_level {α : Type} (l : List α) (d : Nat) (a : α) :
    l.reverse[d]? = some a ↔ d < l.length ∧ l[l.length - 1 - d]? = some a := by
  have := level_index l.reverse d a
  rw [List.reverse_reverse, List.length_reverse] at this
  exact this

/-! ### `Sane` in terms of indices -/

structure SaneC (sh : Shell) : Prop where
  bottom : (temps sh.scopes).reverse[0]? = some false
  kept : ∀ (i : Nat) n v, (column n sh.scopes)[i]? = some (some v) → v.readonly = true →
    v.nodelete = true
  temporary : ∀ (i : Nat) n v, (column n sh.scopes)[i]? = some (some v) →
    (temps sh.scopes)[i]? = some true → v.nodelete = false
  getters : ∀ (i : Nat) n v, (column n sh.scopes)[i]? = some (some v) → v.getter ≠ .none →
    n = "LINENO".toList ∨ n = "RANDOM".toList
  random : sh.randomActive = true → ∀ (i : Nat) v,
    (column "RANDOM".toList sh.scopes)[i]? = some (some v) → v.getter = .random

theorem sane_iff (sh : Shell) : Sane sh ↔ SaneC sh := by
  constructor
  · intro h
    have key : ∀ (i : Nat) n v, (column n sh.scopes)[i]? = some (some v) →
        varAt sh (sh.scopes.length - 1 - i) n = some v := by
      intro i n v hv
      rw [varAt_column]
      have := ((level_index _ _ _).mp hv).2
      rw [column_length] at this
      exact this
    refine ⟨(plainAt_temps _ _).mp h.bottom, fun i n v hv => h.kept _ n v (key i n v hv),
      fun i n v hv ht => h.temporary _ n v (key i n v hv) ?_,
      fun i n v hv => h.getters _ n v (key i n v hv),
      fun hr i v hv => h.random hr _ v (key i _ v hv)⟩
    rw [tempAt_temps]
    have := ((level_index _ _ _).mp ht).2
    rw [temps_length] at this
    exact this
  · intro h
    have key : ∀ (d : Nat) n v, varAt sh d n = some v →
        (column n sh.scopes)[sh.scopes.length - 1 - d]? = some (some v) := by
      intro d n v hv
      rw [varAt_column] at hv
      have := ((index_level _ _ _).mp hv).2
      rw [column_length] at this
      exact this
    refine ⟨(plainAt_temps _ _).mpr h.bottom, fun d n v hv => h.kept _ n v (key d n v hv),
      fun d n v hv ht => h.temporary _ n v (key d n v hv) ?_,
      fun d n v hv => h.getters _ n v (key d n v hv),
      fun hr d v hv => h.random hr _ v (key d _ v hv)⟩
    rw [tempAt_temps] at ht
    have := ((index_level _ _ _).mp ht).2
    rw [temps_length] at this
    exact this

theorem SaneC.pos {sh : Shell} (h : SaneC sh) : 0 < sh.scopes.length := by
  have := ((index_level _ _ _).mp h.bottom).1
  rw [temps_length] at this
  exact this

/-- The outermost scope is not temporary. -/
theorem SaneC.last {sh : Shell} (h : SaneC sh) (i : Nat) (hi : i + 1 = sh.scopes.length) :
    (temps sh.scopes)[i]? = some false := by
  have := ((index_level _ _ _).mp h.bottom).2
  rw [temps_length] at this
  rw [show i = sh.scopes.length - 1 - 0 from by omega]
  exact this

/-- A change of the variables of one name keeps the state sane. -/
theorem SaneC.change {sh sh' : Shell} (h : SaneC sh) (n : Name)
    (ht : temps sh'.scopes = temps sh.scopes)
    (ho : ∀ m, m ≠ n → column m sh'.scopes = column m sh.scopes)
    (hn : ∀ (i : Nat) v, (column n sh'.scopes)[i]? = some (some v) →
      (v.readonly = true → v.nodelete = true) ∧
      ((temps sh.scopes)[i]? = some true → v.nodelete = false) ∧
      (v.getter ≠ .none → n = "LINENO".toList ∨ n = "RANDOM".toList))
    (hr : sh'.randomActive = true → sh.randomActive = true ∧
      (n = "RANDOM".toList → ∀ (i : Nat) v, (column n sh'.scopes)[i]? = some (some v) →
        v.getter = .random)) : SaneC sh' := by
  refine ⟨ht ▸ h.bottom, ?_, ?_, ?_, ?_⟩
  · intro i m v hv
    by_cases hm : m = n
    · subst hm; exact (hn i v hv).1
    · rw [ho m hm] at hv
      exact h.kept i m v hv
  · intro i m v hv htt
    rw [ht] at htt
    by_cases hm : m = n
    · subst hm; exact (hn i v hv).2.1 htt
    · rw [ho m hm] at hv
      exact h.temporary i m v hv htt
  · intro i m v hv hg
    by_cases hm : m = n
    · subst hm; exact (hn i v hv).2.2 hg
    · rw [ho m hm] at hv
      exact h.getters i m v hv hg
  · intro hra i v hv
    by_cases hm : "RANDOM".toList = n
    · exact (hr hra).2 hm.symm i v (hm ▸ hv)
    · rw [ho _ hm] at hv
      exact h.random (hr hra).1 i v hv

theorem dropVar_random (sh : Shell) (i : Nat) (n : Name) (v : Var) :
    (dropVar sh i n v).randomActive = (sh.randomActive && n != "RANDOM".toList) := by
  unfold dropVar reexport
  simp only []
  split <;> rfl

theorem set_some {α : Type} (l : List α) (i j : Nat) (a b : α) (h : (l.set i a)[j]? = some b) :
    (i = j ∧ b = a) ∨ (i ≠ j ∧ l[j]? = some b) := by
  by_cases hij : i = j
  · subst hij
    rw [List.getElem?_set] at h
    simp only [if_true] at h
    split at h
    · exact Or.inl ⟨rfl, by cases h; rfl⟩
    · cases h
  · rw [List.getElem?_set_ne hij] at h
    exact Or.inr ⟨hij, h⟩

theorem SaneC.dropVar {sh : Shell} (h : SaneC sh) (i : Nat) (n : Name) (v : Var) :
    SaneC (dropVar sh i n v) := by
  refine h.change n (dropVar_temps _ _ _ _) (fun m hm => dropVar_column_other _ _ _ _ _ hm) ?_ ?_
  · intro j w hw
    rw [dropVar_column] at hw
    rcases set_some _ _ _ _ _ hw with ⟨_, hc⟩ | ⟨_, hc⟩
    · cases hc
    · exact ⟨h.kept j n w hc, h.temporary j n w hc, h.getters j n w hc⟩
  · intro hr
    rw [dropVar_random] at hr
    simp only [Bool.and_eq_true, bne_iff_ne, ne_eq] at hr
    exact ⟨hr.1, fun e => absurd e hr.2⟩

theorem SaneC.cleared {n : Name} {b : Nat} {sh sh' : Shell} (h : SaneC sh)
    (hc : Cleared n b sh sh') : SaneC sh' := by
  induction hc with
  | refl => exact h
  | drop sh sh' i v hi ht hv _ ih => exact ih (h.dropVar i n v)

theorem reexportIf_random (b : Bool) (sh : Shell) (n : Name) :
    (reexportIf b sh n).randomActive = sh.randomActive := by
  unfold reexportIf
  split <;> rfl

theorem SaneC.reexportIf {sh : Shell} (h : SaneC sh) (b : Bool) (n : Name) :
    SaneC (reexportIf b sh n) := by
  have hs := reexportIf_scopes b sh n
  exact ⟨hs ▸ h.bottom, hs ▸ h.kept, hs ▸ h.temporary, hs ▸ h.getters,
    fun hr => by rw [reexportIf_random] at hr; rw [hs]; exact h.random hr⟩

/-- A variable changed in place. -/
theorem SaneC.putVar {sh : Shell} (h : SaneC sh) (i : Nat) (n : Name) (v v' : Var)
    (hv : (column n sh.scopes)[i]? = some (some v)) (hr : v'.readonly = v.readonly)
    (hd : v'.nodelete = v.nodelete) (hg : v'.getter = v.getter) : SaneC (putVar sh i n v') := by
  refine h.change n (putVar_temps _ _ _ _) (fun m hm => putVar_column_other _ _ _ _ _ hm) ?_ ?_
  · intro j w hw
    rw [putVar_column] at hw
    rcases set_some _ _ _ _ _ hw with ⟨hij, hc⟩ | ⟨_, hc⟩
    · cases hc
      subst hij
      rw [hr, hd, hg]
      exact ⟨h.kept i n v hv, h.temporary i n v hv, h.getters i n v hv⟩
    · exact ⟨h.kept j n w hc, h.temporary j n w hc, h.getters j n w hc⟩
  · intro hra
    refine ⟨hra, ?_⟩
    rintro rfl j w hw
    rw [putVar_column] at hw
    rcases set_some _ _ _ _ _ hw with ⟨hij, hc⟩ | ⟨_, hc⟩
    · cases hc
      rw [hg]
      exact h.random hra i v hv
    · exact h.random hra j w hc

theorem store_random (seed : Word → Bool) (sh : Shell) (i : Nat) (n : Name) (v : Var) :
    (store seed sh i n v).randomActive = true →
      sh.randomActive = true ∧ (n = "RANDOM".toList → (stored seed sh n v).getter = .random) := by
  unfold store stored
  simp only []
  cases hra : sh.randomActive with
  | false => simp [putVar, hra]
  | true =>
    cases hn : n == "RANDOM".toList with
    | false =>
      simp only [Bool.and_false, Bool.false_eq_true, if_false]
      intro _
      refine ⟨trivial, fun e => ?_⟩
      simp [e] at hn
    | true =>
      simp only [Bool.and_true, if_true]
      cases reseeds seed v with
      | true => simp
      | false => simp

/-- A variable that is stored. -/
theorem SaneC.store {sh : Shell} (h : SaneC sh) (seed : Word → Bool) (i : Nat) (n : Name) (v : Var)
    (hk : v.readonly = true → v.nodelete = true)
    (ht : (temps sh.scopes)[i]? = some true → v.nodelete = false)
    (hg : v.getter ≠ .none → n = "LINENO".toList ∨ n = "RANDOM".toList) :
    SaneC (store seed sh i n v) := by
  obtain ⟨_, _, hr, hd⟩ := stored_fields seed sh n v
  refine h.change n (store_temps _ _ _ _ _) (fun m hm => store_column_other _ _ _ _ _ _ hm) ?_ ?_
  · intro j w hw
    rw [store_column] at hw
    rcases set_some _ _ _ _ _ hw with ⟨hij, hc⟩ | ⟨_, hc⟩
    · cases hc
      subst hij
      rw [hr, hd]
      refine ⟨hk, ht, ?_⟩
      unfold stored
      split
      · rename_i hc
        intro _
        simp only [Bool.and_eq_true, beq_iff_eq] at hc
        exact Or.inr hc.2
      · exact hg
    · exact ⟨h.kept j n w hc, h.temporary j n w hc, h.getters j n w hc⟩
  · intro hra
    obtain ⟨h1, h2⟩ := store_random seed sh i n v hra
    refine ⟨h1, ?_⟩
    rintro rfl j w hw
    rw [store_column] at hw
    rcases set_some _ _ _ _ _ hw with ⟨hij, hc⟩ | ⟨_, hc⟩
    · cases hc
      exact h2 rfl
    · exact h.random h1 j w hc

/-! ### The operations -/

/-- What all three ways to find a variable have in common. -/
structure AnyFound (n : Name) (sh : Shell) (f : Found) : Prop where
  cleared : Cleared n f.idx sh f.sh
  here : (column n f.sh.scopes)[f.idx]? = some (some f.var) ∨
    ((column n f.sh.scopes)[f.idx]? = some none ∧ f.var = .fresh)

theorem newVariable_found (n : Name) (sh : Shell) (f : Found) (k : ScopeKind)
    (hpos : 0 < sh.scopes.length) (h : newVariable sh n k = some f) : AnyFound n sh f := by
  cases k with
  | global =>
    have g := newGlobal_spec n sh f hpos h
    exact ⟨g.cleared, g.here.elim (fun h => Or.inl h.1) fun h => Or.inr ⟨h.1, h.2.1⟩⟩
  | «local» =>
    have g := newLocal_spec n sh f h
    exact ⟨g.cleared, g.here⟩
  | temp =>
    obtain ⟨h1, h2⟩ := newTemporary_spec n sh f h
    rcases h2 with ⟨h2, _⟩ | ⟨h2, _, _, h3⟩
    · refine ⟨h1 ▸ .refl _, Or.inl ?_⟩
      rw [h1]
      exact ((locate_column _ _ _ _).mp h2).1
    · refine ⟨h1 ▸ .refl _, ?_⟩
      rw [h1, h2]
      exact h3

/-- What `typeset` finds. -/
theorem typeset_found (n : Name) (sh : Shell) (f : Found) (g : Bool) (hs : SaneC sh)
    (h : (if g then newGlobal sh n else newLocal sh n) = some f) :
    AnyFound n sh f ∧ (temps f.sh.scopes)[f.idx]? = some false := by
  cases g with
  | true =>
    simp only [if_true] at h
    have g := newGlobal_spec n sh f hs.pos h
    refine ⟨⟨g.cleared, g.here.elim (fun h => Or.inl h.1) fun h => Or.inr ⟨h.1, h.2.1⟩⟩, ?_⟩
    rcases g.here with h | h
    · exact h.2
    · exact (hs.cleared g.cleared).last _ h.2.2
  | false =>
    simp only [Bool.false_eq_true, if_false] at h
    have g := newLocal_spec n sh f h
    exact ⟨⟨g.cleared, g.here⟩, g.nontemp⟩

/-- The flags of the variable that was found. -/
theorem AnyFound.flags {n : Name} {sh : Shell} {f : Found} (g : AnyFound n sh f) (hs : SaneC sh) :
    (f.var.readonly = true → f.var.nodelete = true) ∧
      ((temps f.sh.scopes)[f.idx]? = some true → f.var.nodelete = false) ∧
      (f.var.getter ≠ .none → n = "LINENO".toList ∨ n = "RANDOM".toList) := by
  have hs' := hs.cleared g.cleared
  rcases g.here with h | ⟨_, h⟩
  · exact ⟨hs'.kept _ _ _ h, hs'.temporary _ _ _ h, hs'.getters _ _ _ h⟩
  · rw [h]
    exact ⟨fun h => (by cases h), fun _ => rfl, fun h => absurd rfl h⟩

/-- Operations that change the visible variable in place. -/
def InPlace (n : Name) : Op → Prop
  | .setElement m _ _ => m = n
  | .arrayEdit m _ => m = n
  | .shift m _ => m = n
  | .read m _ => m = n
  | _ => False

/-- The possible outcomes of an operation on the variable `n`. -/
inductive Outcome (seed : Word → Bool) (sh : Shell) (n : Name) : Op → Shell → Bool → Prop where
  | same (op : Op) (b : Bool) : Outcome seed sh n op sh b
  | refused (val : Value) (k : ScopeKind) (exp : Bool) (f : Found) :
      newVariable sh n k = some f → AnyFound n sh f → f.var.readonly = true →
      Outcome seed sh n (.assign n val k exp) f.sh false
  | assigned (val : Value) (k : ScopeKind) (exp : Bool) (f : Found) (e : Bool) :
      newVariable sh n k = some f → AnyFound n sh f → f.var.readonly = false →
      e = (f.var.exported || exp || (sh.allexport && n.head? != some '=')) →
      Outcome seed sh n (.assign n val k exp)
        (reexportIf e (store seed f.sh f.idx n ⟨val, e, false, f.var.nodelete, .none⟩) n) true
  | typeset (val : Option Word) (t : TypesetFlags) (f : Found) :
      (if t.global then newGlobal sh n else newLocal sh n) = some f →
      AnyFound n sh f → (temps f.sh.scopes)[f.idx]? = some false →
      Outcome seed sh n (.typeset n val t)
        (reexportIf (f.var.exported != (typesetVar f.var val t).exported ||
          (val.isSome && (typesetVar f.var val t).exported))
          (store seed f.sh f.idx n (typesetVar f.var val t)) n)
        (!(val.isSome && f.var.readonly))
  | edited (op : Op) (i : Nat) (v : Var) (val : Value) (u : Bool) :
      InPlace n op → locate sh.scopes n = some (i, v) →
      (v.readonly = false ∨ v.getter ≠ .none ∨ ∃ e, op = .shift n e) →
      (u = v.exported ∨ (∃ e, op = .shift n e) ∨ (∃ e, op = .arrayEdit n e)) →
      (∀ m w, op = .read m w → v.getter ≠ .none) →
      Outcome seed sh n op (reexportIf u (putVar sh i n { v with value := val }) n) true
  | removed (op : Op) (i : Nat) (v : Var) :
      locate sh.scopes n = some (i, v) → v.nodelete = false → op = .unset n →
      Outcome seed sh n op (dropVar sh i n v) true

/-- The name an operation is about. -/
def opName : Op → Option Name
  | .assign n _ _ _ => some n
  | .setElement n _ _ => some n
  | .typeset n _ _ => some n
  | .unset n => some n
  | .arrayEdit n _ => some n
  | .shift n _ => some n
  | .read n _ => some n
  | .enter _ => none
  | .leave => none
  | .allexport _ => none

theorem step_outcome (seed : Word → Bool) (sh sh' : Shell) (op : Op) (b : Bool) (n : Name)
    (hs : SaneC sh) (hn : opName op = some n) (h : step seed sh op = some (sh', b)) :
    Outcome seed sh n op sh' b := by
  cases op with
  | enter => cases hn
  | leave => cases hn
  | allexport => cases hn
  | assign m val k exp =>
    cases hn
    simp only [step, setVariable] at h
    cases hf : newVariable sh n k with
    | none => simp [hf] at h
    | some f =>
      simp only [hf] at h
      have g := newVariable_found n sh f k hs.pos hf
      cases hr : f.var.readonly with
      | true =>
        simp only [hr, if_true, Option.some.injEq, Prod.mk.injEq] at h
        obtain ⟨rfl, rfl⟩ := h
        exact .refused val k exp f hf g hr
      | false =>
        simp only [hr, Bool.false_eq_true, if_false, Option.some.injEq, Prod.mk.injEq] at h
        obtain ⟨rfl, rfl⟩ := h
        exact .assigned val k exp f _ hf g hr rfl
  | setElement m j w =>
    cases hn
    simp only [step, setArrayElement, Option.some.injEq] at h
    cases hl : locate sh.scopes n with
    | none => simp only [hl] at h; cases h; exact .same _ _
    | some p =>
      obtain ⟨i, v⟩ := p
      simp only [hl] at h
      cases hv : v.value with
      | scalar => simp only [hv] at h; cases h; exact .same _ _
      | array vs =>
        simp only [hv] at h
        cases hr : v.readonly with
        | true => simp only [hr, if_true] at h; cases h; exact .same _ _
        | false =>
          rw [if_neg (by simp [hr])] at h
          split at h
          · cases h; exact .same _ _
          · cases h; exact .edited _ i v _ _ rfl hl (Or.inl hr) (Or.inl rfl)
              (fun _ _ h => by cases h)
  | typeset m val t =>
    cases hn
    simp only [step, Variable.typeset] at h
    cases hf : (if t.global then newGlobal sh n else newLocal sh n) with
    | none => simp [hf] at h
    | some f =>
      simp only [hf, Option.some.injEq, Prod.mk.injEq] at h
      obtain ⟨g, gt⟩ := typeset_found n sh f t.global hs hf
      obtain ⟨rfl, rfl⟩ := h
      exact .typeset val t f hf g gt
  | unset m =>
    cases hn
    simp only [step, unsetVariable, Option.some.injEq] at h
    cases hl : locate sh.scopes n with
    | none => simp only [hl] at h; cases h; exact .same _ _
    | some p =>
      obtain ⟨i, v⟩ := p
      simp only [hl] at h
      cases hd : v.nodelete with
      | true => simp only [hd, if_true] at h; cases h; exact .same _ _
      | false =>
        simp only [hd, Bool.false_eq_true, if_false] at h
        cases h
        exact .removed _ i v hl hd rfl
  | arrayEdit m e =>
    cases hn
    simp only [step, arrayEdit, Option.some.injEq] at h
    cases hl : locate sh.scopes n with
    | none => simp only [hl] at h; cases h; exact .same _ _
    | some p =>
      obtain ⟨i, v⟩ := p
      simp only [hl] at h
      cases hv : v.value with
      | scalar => simp only [hv] at h; cases h; exact .same _ _
      | array vs =>
        simp only [hv] at h
        cases hr : v.readonly with
        | true => simp only [hr, if_true] at h; cases h; exact .same _ _
        | false =>
          rw [if_neg (by simp [hr])] at h
          cases he : e vs with
          | none => simp only [he] at h; cases h; exact .same _ _
          | some vs' =>
            simp only [he] at h
            cases h
            exact Outcome.edited (.arrayEdit n e) i v (.array vs') false rfl hl (Or.inl hr)
              (Or.inr (Or.inr ⟨e, rfl⟩)) (fun _ _ h => by cases h)
  | shift m e =>
    cases hn
    simp only [step, shiftArray, Option.some.injEq] at h
    cases hl : locate sh.scopes n with
    | none => simp only [hl] at h; cases h; exact .same _ _
    | some p =>
      obtain ⟨i, v⟩ := p
      simp only [hl] at h
      cases hv : v.value with
      | scalar => simp only [hv] at h; cases h; exact .same _ _
      | array vs =>
        simp only [hv] at h
        cases he : e vs with
        | none => simp only [he] at h; cases h; exact .same _ _
        | some vs' =>
          simp only [he] at h
          cases h
          exact Outcome.edited (.shift n e) i v (.array vs') false rfl hl
            (Or.inr (Or.inr ⟨e, rfl⟩)) (Or.inr (Or.inl ⟨e, rfl⟩)) (fun _ _ h => by cases h)
  | read m w =>
    cases hn
    simp only [step, readVariable, Option.some.injEq, Prod.mk.injEq] at h
    obtain ⟨h, rfl⟩ := h
    cases hl : locate sh.scopes n with
    | none => simp only [hl] at h; cases h; exact .same _ _
    | some p =>
      obtain ⟨i, v⟩ := p
      simp only [hl] at h
      cases hv : v.value with
      | array => simp only [hv] at h; cases h; exact .same _ _
      | scalar =>
        simp only [hv] at h
        split at h
        · cases h; exact .same _ _
        · rename_i hg
          cases h
          exact .edited _ i v _ _ rfl hl (Or.inr (Or.inl hg)) (Or.inl rfl) (fun _ _ _ => hg)

theorem typesetVar_flags (v : Var) (val : Option Word) (t : TypesetFlags)
    (h : v.readonly = true → v.nodelete = true) :
    (typesetVar v val t).readonly = true → (typesetVar v val t).nodelete = true := by
  unfold typesetVar
  cases t.readonly with
  | true => simp
  | false => simpa using h

theorem Outcome.sane {seed : Word → Bool} {sh sh' : Shell} {n : Name} {op : Op} {b : Bool}
    (h : Outcome seed sh n op sh' b) (hs : SaneC sh) : SaneC sh' := by
  cases h with
  | same => exact hs
  | refused val k exp f _ g => exact hs.cleared g.cleared
  | assigned val k exp f e _ g hr _ =>
    refine SaneC.reexportIf (SaneC.store (hs.cleared g.cleared) seed _ _ _ ?_ ?_ ?_) _ _
    · intro h; cases h
    · exact (g.flags hs).2.1
    · exact fun h => absurd rfl h
  | typeset val t f _ g gt =>
    refine SaneC.reexportIf (SaneC.store (hs.cleared g.cleared) seed _ _ _ ?_ ?_ ?_) _ _
    · exact typesetVar_flags _ _ _ (g.flags hs).1
    · intro h; rw [gt] at h; cases h
    · intro h
      refine (g.flags hs).2.2 fun hg => h ?_
      unfold typesetVar
      simp only []
      split
      · rfl
      · exact hg
  | edited _ i v val u _ hl =>
    exact SaneC.reexportIf (hs.putVar i n v { v with value := val } ((locate_column _ _ _ _).mp hl).1 rfl rfl rfl) _ _
  | removed _ i v hl => exact hs.dropVar i n v

/-! ### Entering and leaving a scope -/

theorem reexport_random (sh : Shell) (n : Name) (v : Var) :
    (reexport sh n v).randomActive = (sh.randomActive && n != "RANDOM".toList) := by
  unfold reexport
  simp only []
  split <;> rfl

theorem reexportAll_frame (m : Map Var) (sh : Shell) :
    (∀ n, column n (reexportAll m sh).scopes = column n sh.scopes) ∧
      temps (reexportAll m sh).scopes = temps sh.scopes ∧
      ((reexportAll m sh).randomActive = true → sh.randomActive = true) := by
  induction m generalizing sh with
  | nil => exact ⟨fun _ => rfl, rfl, id⟩
  | cons e m ih =>
    rw [reexportAll]
    obtain ⟨h1, h2, h3⟩ := ih (reexport sh e.1 e.2)
    refine ⟨fun n => ?_, ?_, fun h => ?_⟩
    · rw [h1, reexport_scopes, column_map_reset]
    · rw [h2, reexport_scopes, temps_map_reset]
    · have := h3 h
      rw [reexport_random] at this
      simp only [Bool.and_eq_true] at this
      exact this.1

theorem closeScope_frame (sh sh' : Shell) (h : closeScope sh = some sh') :
    ∃ s ss, sh.scopes = s :: ss ∧ ss ≠ [] ∧ (∀ n, column n sh'.scopes = column n ss) ∧
      temps sh'.scopes = temps ss ∧ (sh'.randomActive = true → sh.randomActive = true) := by
  unfold closeScope at h
  cases hs : sh.scopes with
  | nil => simp [hs] at h
  | cons s ss =>
    simp only [hs] at h
    cases ss with
    | nil => simp at h
    | cons t ts =>
      simp only [List.isEmpty_cons, Bool.false_eq_true, if_false, Option.some.injEq] at h
      subst h
      obtain ⟨h1, h2, h3⟩ := reexportAll_frame s.vars { sh with scopes := t :: ts }
      exact ⟨s, t :: ts, rfl, by simp, h1, h2, h3⟩

theorem getElem?_reverse_cons {α : Type} (a : α) (l : List α) (d : Nat) (h : d < l.length) :
    (a :: l).reverse[d]? = l.reverse[d]? := by
  rw [List.reverse_cons, List.getElem?_append_left (by simpa using h)]

theorem SaneC.close {sh sh' : Shell} (hs : SaneC sh) (h : closeScope sh = some sh') : SaneC sh' := by
  obtain ⟨s, ss, he, hne, hc, ht, hr⟩ := closeScope_frame sh sh' h
  have hl : 0 < ss.length := List.length_pos_iff.mpr hne
  refine ⟨?_, ?_, ?_, ?_, ?_⟩
  · rw [ht]
    have := hs.bottom
    rw [he, temps, List.map_cons, getElem?_reverse_cons _ _ _ (by simpa using hl)] at this
    exact this
  · intro i n v hv
    rw [hc] at hv
    refine hs.kept (i + 1) n v ?_
    rw [he, column, List.map_cons, List.getElem?_cons_succ]
    exact hv
  · intro i n v hv htt
    rw [hc] at hv
    rw [ht] at htt
    refine hs.temporary (i + 1) n v ?_ ?_
    · rw [he, column, List.map_cons, List.getElem?_cons_succ]
      exact hv
    · rw [he, temps, List.map_cons, List.getElem?_cons_succ]
      exact htt
  · intro i n v hv
    rw [hc] at hv
    refine hs.getters (i + 1) n v ?_
    rw [he, column, List.map_cons, List.getElem?_cons_succ]
    exact hv
  · intro hra i v hv
    rw [hc] at hv
    refine hs.random (hr hra) (i + 1) v ?_
    rw [he, column, List.map_cons, List.getElem?_cons_succ]
    exact hv

theorem SaneC.open {sh : Shell} (hs : SaneC sh) (t : Bool) : SaneC (openScope sh t) := by
  refine ⟨?_, ?_, ?_, ?_, ?_⟩
  · show (temps (_ :: sh.scopes)).reverse[0]? = some false
    rw [temps, List.map_cons, getElem?_reverse_cons _ _ _ (by simpa using hs.pos)]
    exact hs.bottom
  · intro i n v hv
    cases i with
    | zero => simp [openScope, column, get] at hv
    | succ i =>
      refine hs.kept i n v ?_
      simpa [openScope, column] using hv
  · intro i n v hv ht
    cases i with
    | zero => simp [openScope, column, get] at hv
    | succ i =>
      refine hs.temporary i n v ?_ ?_
      · simpa [openScope, column] using hv
      · simpa [openScope, temps] using ht
  · intro i n v hv
    cases i with
    | zero => simp [openScope, column, get] at hv
    | succ i =>
      refine hs.getters i n v ?_
      simpa [openScope, column] using hv
  · intro hr i v hv
    cases i with
    | zero => simp [openScope, column, get] at hv
    | succ i =>
      refine hs.random hr i v ?_
      simpa [openScope, column] using hv

theorem step_sane (seed : Word → Bool) (sh sh' : Shell) (op : Op) (b : Bool) (hs : SaneC sh)
    (h : step seed sh op = some (sh', b)) : SaneC sh' := by
  cases hn : opName op with
  | some n => exact (step_outcome seed sh sh' op b n hs hn h).sane hs
  | none =>
    cases op with
    | enter t =>
      simp only [step, Option.some.injEq, Prod.mk.injEq] at h
      obtain ⟨rfl, _⟩ := h
      exact hs.open t
    | leave =>
      simp only [step, Option.map_eq_some_iff] at h
      obtain ⟨a, ha, he⟩ := h
      cases he
      exact hs.close ha
    | allexport t =>
      simp only [step, Option.some.injEq, Prod.mk.injEq] at h
      obtain ⟨rfl, _⟩ := h
      exact ⟨hs.bottom, hs.kept, hs.temporary, hs.getters, hs.random⟩
    | _ => cases hn

end Yash.Variable
