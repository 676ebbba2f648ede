import Verif.Variable.Model
/-! # What the operations do to the variables of one name -/
set_option autoImplicit false

namespace Yash.Variable

/-- The variables named `n`, scope by scope. -/
def column (n : Name) (ss : List Scope) : List (Option Var) := ss.map fun s => get s.vars n

def temps (ss : List Scope) : List Bool := ss.map fun s => s.temp

theorem resetPath_vars (n : Name) (s : Scope) : (resetPath n s).vars = s.vars := by
  unfold resetPath
  split
  · split <;> rfl
  · rfl

theorem resetPath_temp (n : Name) (s : Scope) : (resetPath n s).temp = s.temp := by
  unfold resetPath
  split
  · split <;> rfl
  · rfl

theorem column_map_reset (m n : Name) (ss : List Scope) :
    column m (ss.map (resetPath n)) = column m ss := by
  simp [column, List.map_map, Function.comp_def, resetPath_vars]

theorem temps_map_reset (n : Name) (ss : List Scope) :
    temps (ss.map (resetPath n)) = temps ss := by
  simp [temps, List.map_map, Function.comp_def, resetPath_temp]

theorem column_resetUpTo (m n : Name) (ss : List Scope) :
    ∀ i, column m (resetUpTo n i ss) = column m ss := by
  induction ss with
  | nil => intro i; cases i <;> rfl
  | cons s ss ih =>
    intro i
    cases i with
    | zero => simp [resetUpTo, column, resetPath_vars]
    | succ i =>
      have := ih i
      simp only [column] at this
      simp [resetUpTo, column, resetPath_vars, this]

theorem temps_resetUpTo (n : Name) (ss : List Scope) :
    ∀ i, temps (resetUpTo n i ss) = temps ss := by
  induction ss with
  | nil => intro i; cases i <;> rfl
  | cons s ss ih =>
    intro i
    cases i with
    | zero => simp [resetUpTo, temps, resetPath_temp]
    | succ i =>
      have := ih i
      simp only [temps] at this
      simp [resetUpTo, temps, resetPath_temp, this]

theorem temps_modify (ss : List Scope) (f : Scope → Scope) (hf : ∀ s, (f s).temp = s.temp) :
    ∀ i, temps (ss.modify i f) = temps ss := by
  induction ss with
  | nil => intro i; cases i <;> rfl
  | cons s ss ih =>
    intro i
    cases i with
    | zero => simp [temps, hf]
    | succ i =>
      have := ih i
      simp only [temps] at this
      simp [temps, this]

theorem column_modify (m : Name) (ss : List Scope) (f : Scope → Scope) (o : Option Var)
    (hf : ∀ s, get (f s).vars m = o) :
    ∀ i, column m (ss.modify i f) = (column m ss).set i o := by
  induction ss with
  | nil => intro i; cases i <;> rfl
  | cons s ss ih =>
    intro i
    cases i with
    | zero => simp [column, hf]
    | succ i =>
      have := ih i
      simp only [column] at this
      simp [column, this]

theorem column_modify_same (m : Name) (ss : List Scope) (f : Scope → Scope)
    (hf : ∀ s, get (f s).vars m = get s.vars m) :
    ∀ i, column m (ss.modify i f) = column m ss := by
  induction ss with
  | nil => intro i; cases i <;> rfl
  | cons s ss ih =>
    intro i
    cases i with
    | zero => simp [column, hf]
    | succ i =>
      have := ih i
      simp only [column] at this
      simp [column, this]

/-! ### Putting a variable -/

theorem putVar_column (sh : Shell) (i : Nat) (n : Name) (v : Var) :
    column n (putVar sh i n v).scopes = (column n sh.scopes).set i (some v) :=
  column_modify n _ _ _ (fun s => by simp [get_put]) i

theorem putVar_column_other (sh : Shell) (i : Nat) (n m : Name) (v : Var) (h : m ≠ n) :
    column m (putVar sh i n v).scopes = column m sh.scopes :=
  column_modify_same m _ _ (fun s => by simp [get_put, h]) i

theorem putVar_temps (sh : Shell) (i : Nat) (n : Name) (v : Var) :
    temps (putVar sh i n v).scopes = temps sh.scopes :=
  temps_modify _ (fun s => { s with vars := put s.vars n v }) (fun _ => rfl) i

/-! ### Dropping a variable -/

theorem reexport_scopes (sh : Shell) (n : Name) (v : Var) :
    (reexport sh n v).scopes = sh.scopes.map (resetPath n) := by
  unfold reexport
  simp only []
  split <;> rfl

theorem dropVar_scopes (sh : Shell) (i : Nat) (n : Name) (v : Var) :
    (dropVar sh i n v).scopes =
      (sh.scopes.modify i fun s => { s with vars := remove s.vars n }).map (resetPath n) := by
  rw [dropVar, reexport_scopes]

theorem dropVar_column (sh : Shell) (i : Nat) (n : Name) (v : Var) :
    column n (dropVar sh i n v).scopes = (column n sh.scopes).set i none := by
  rw [dropVar_scopes, column_map_reset]
  exact column_modify n _ _ _ (fun s => by simp [get_remove]) i

theorem dropVar_column_other (sh : Shell) (i : Nat) (n m : Name) (v : Var) (h : m ≠ n) :
    column m (dropVar sh i n v).scopes = column m sh.scopes := by
  rw [dropVar_scopes, column_map_reset]
  exact column_modify_same m _ _ (fun s => by simp [get_remove, h]) i

theorem dropVar_temps (sh : Shell) (i : Nat) (n : Name) (v : Var) :
    temps (dropVar sh i n v).scopes = temps sh.scopes := by
  rw [dropVar_scopes, temps_map_reset]
  exact temps_modify _ (fun s => { s with vars := remove s.vars n }) (fun _ => rfl) i

/-! ### Storing a variable -/

/-- The variable that `store` really puts. -/
def stored (seed : Word → Bool) (sh : Shell) (n : Name) (v : Var) : Var :=
  if sh.randomActive && n == "RANDOM".toList then
    if reseeds seed v then { v with getter := .random } else v
  else v

theorem stored_fields (seed : Word → Bool) (sh : Shell) (n : Name) (v : Var) :
    (stored seed sh n v).value = v.value ∧ (stored seed sh n v).exported = v.exported ∧
      (stored seed sh n v).readonly = v.readonly ∧ (stored seed sh n v).nodelete = v.nodelete := by
  unfold stored
  split
  · split <;> exact ⟨rfl, rfl, rfl, rfl⟩
  · exact ⟨rfl, rfl, rfl, rfl⟩

theorem store_scopes (seed : Word → Bool) (sh : Shell) (i : Nat) (n : Name) (v : Var) :
    (store seed sh i n v).scopes =
      resetUpTo n i (putVar sh i n (stored seed sh n v)).scopes := by
  unfold store stored
  simp only []
  split
  · split <;> rfl
  · rfl

theorem store_environ (seed : Word → Bool) (sh : Shell) (i : Nat) (n : Name) (v : Var) :
    (store seed sh i n v).environ = sh.environ := by
  unfold store
  simp only []
  split
  · split <;> rfl
  · rfl

theorem store_column (seed : Word → Bool) (sh : Shell) (i : Nat) (n : Name) (v : Var) :
    column n (store seed sh i n v).scopes =
      (column n sh.scopes).set i (some (stored seed sh n v)) := by
  rw [store_scopes, column_resetUpTo, putVar_column]

theorem store_column_other (seed : Word → Bool) (sh : Shell) (i : Nat) (n m : Name) (v : Var)
    (h : m ≠ n) : column m (store seed sh i n v).scopes = column m sh.scopes := by
  rw [store_scopes, column_resetUpTo, putVar_column_other _ _ _ _ _ h]

theorem store_temps (seed : Word → Bool) (sh : Shell) (i : Nat) (n : Name) (v : Var) :
    temps (store seed sh i n v).scopes = temps sh.scopes := by
  rw [store_scopes, temps_resetUpTo, putVar_temps]

theorem reexportIf_scopes (b : Bool) (sh : Shell) (n : Name) :
    (reexportIf b sh n).scopes = sh.scopes := by
  unfold reexportIf
  split <;> rfl

/-! ### Searching -/

theorem locate_column (ss : List Scope) (n : Name) (i : Nat) (v : Var) :
    locate ss n = some (i, v) ↔
      (column n ss)[i]? = some (some v) ∧ ∀ j, j < i → (column n ss)[j]? = some none := by
  induction ss generalizing i with
  | nil => simp [locate, column]
  | cons s ss ih =>
    rw [locate]
    cases hg : get s.vars n with
    | some w =>
      simp only [column, List.map_cons, hg]
      constructor
      · intro h
        cases h
        exact ⟨rfl, fun j hj => absurd hj (Nat.not_lt_zero j)⟩
      · rintro ⟨h1, h2⟩
        cases i with
        | zero => simpa [eq_comm] using h1
        | succ i => simpa using h2 0 (Nat.succ_pos i)
    | none =>
      simp only [column, List.map_cons, hg]
      cases i with
      | zero => simp
      | succ i =>
        have := ih i
        simp only [column] at this
        constructor
        · intro h
          rw [Option.map_eq_some_iff] at h
          obtain ⟨⟨k, w⟩, hk, he⟩ := h
          simp only [Prod.mk.injEq, Nat.add_right_cancel_iff] at he
          obtain ⟨rfl, rfl⟩ := he
          have h' := this.mp hk
          refine ⟨by simpa using h'.1, fun j hj => ?_⟩
          cases j with
          | zero => rfl
          | succ j => simpa using h'.2 j (by omega)
        · rintro ⟨h1, h2⟩
          rw [Option.map_eq_some_iff]
          refine ⟨(i, v), this.mpr ⟨by simpa using h1, fun j hj => ?_⟩, rfl⟩
          simpa using h2 (j + 1) (by omega)

theorem locate_none (ss : List Scope) (n : Name) :
    locate ss n = none ↔ ∀ o ∈ column n ss, o = none := by
  induction ss with
  | nil => simp [locate, column]
  | cons s ss ih =>
    rw [locate]
    cases hg : get s.vars n with
    | some w => simp [column, hg]
    | none =>
      simp only [column, List.map_cons, hg, Option.map_eq_none_iff, List.mem_cons,
        forall_eq_or_imp, true_and]
      exact ih

theorem locate_congr (ss tt : List Scope) (n : Name) (h : column n ss = column n tt) :
    locate ss n = locate tt n := by
  cases hl : locate ss n with
  | none =>
    rw [locate_none, h, ← locate_none] at hl
    exact hl.symm
  | some p =>
    obtain ⟨i, v⟩ := p
    rw [locate_column, h, ← locate_column] at hl
    exact hl.symm

/-! ### The exported value -/

/-- `exportedValue` in terms of the column. -/
def exportedIn : List (Option Var) → Option Word
  | [] => none
  | none :: os => exportedIn os
  | some v :: os =>
    if v.exported then
      match v.exportValue with
      | some w => some w
      | none => exportedIn os
    else exportedIn os

theorem exportedValue_column (ss : List Scope) (n : Name) :
    exportedValue ss n = exportedIn (column n ss) := by
  induction ss with
  | nil => rfl
  | cons s ss ih =>
    rw [exportedValue]
    cases hg : get s.vars n with
    | none =>
      simp only [column, List.map_cons, hg, exportedIn]
      exact ih
    | some v =>
      simp only [column, List.map_cons, hg, exportedIn]
      simp only [column] at ih
      rw [ih]
      rfl

/-- Replacing one hidden variable by another does not change the exported value. -/
def Silent (o : Option Var) : Prop := ∀ v, o = some v → v.exported = false

theorem exportedIn_set (os : List (Option Var)) (i : Nat) (o o' : Option Var)
    (h : os[i]? = some o) (ho : Silent o) (ho' : Silent o') :
    exportedIn (os.set i o') = exportedIn os := by
  induction os generalizing i with
  | nil => simp at h
  | cons a os ih =>
    cases i with
    | zero =>
      simp only [List.getElem?_cons_zero, Option.some.injEq] at h
      subst h
      have e : ∀ q : Option Var, Silent q → exportedIn (q :: os) = exportedIn os := by
        intro q hq
        cases q with
        | none => rfl
        | some v => simp [exportedIn, hq v rfl]
      rw [List.set_cons_zero, e _ ho, e _ ho']
    | succ i =>
      have := ih i (by simpa using h)
      rw [List.set_cons_succ]
      cases a with
      | none => simp only [exportedIn, this]
      | some v => simp only [exportedIn, this]

/-- A variable replaced by one with the same export flag and value. -/
theorem exportedIn_set_same (os : List (Option Var)) (i : Nat) (v v' : Var)
    (h : os[i]? = some (some v)) (he : v'.exported = v.exported) (hv : v'.value = v.value) :
    exportedIn (os.set i (some v')) = exportedIn os := by
  induction os generalizing i with
  | nil => simp at h
  | cons a os ih =>
    cases i with
    | zero =>
      simp only [List.getElem?_cons_zero, Option.some.injEq] at h
      subst h
      simp [exportedIn, Var.exportValue, he, hv]
    | succ i =>
      have := ih i (by simpa using h)
      rw [List.set_cons_succ]
      cases a with
      | none => simp only [exportedIn, this]
      | some v => simp only [exportedIn, this]

theorem updateEnviron_get (ss : List Scope) (env : Map Word) (n m : Name) :
    get (updateEnviron ss env n) m =
      if m = n ∧ settable n = true then exportedValue ss n else get env m := by
  unfold updateEnviron
  cases hs : settable n with
  | false => simp
  | true =>
    simp only [if_true, and_true]
    cases he : exportedValue ss n with
    | none => simp [get_remove]
    | some w => simp [get_put]

/-! ### Finding and creating variables -/

/-- The state after some variables named `n` of temporary scopes with indices up to `b` have been
removed. -/
inductive Cleared (n : Name) (b : Nat) : Shell → Shell → Prop where
  | refl (sh : Shell) : Cleared n b sh sh
  | drop (sh sh' : Shell) (i : Nat) (v : Var) :
      i ≤ b → (temps sh.scopes)[i]? = some true → (column n sh.scopes)[i]? = some (some v) →
      Cleared n b (dropVar sh i n v) sh' → Cleared n b sh sh'

theorem Cleared.mono {n : Name} {b c : Nat} {sh sh' : Shell} (h : Cleared n b sh sh')
    (hbc : b ≤ c) : Cleared n c sh sh' := by
  induction h with
  | refl => exact .refl _
  | drop sh sh' i v hi ht hv _ ih => exact .drop _ _ i v (Nat.le_trans hi hbc) ht hv ih

theorem Cleared.temps {n : Name} {b : Nat} {sh sh' : Shell} (h : Cleared n b sh sh') :
    temps sh'.scopes = temps sh.scopes := by
  induction h with
  | refl => rfl
  | drop sh sh' i v hi ht hv _ ih => rw [ih, dropVar_temps]

theorem temps_length (ss : List Scope) : (temps ss).length = ss.length := by simp [temps]

theorem column_length (n : Name) (ss : List Scope) : (column n ss).length = ss.length := by
  simp [column]

theorem Cleared.length {n : Name} {b : Nat} {sh sh' : Shell} (h : Cleared n b sh sh') :
    sh'.scopes.length = sh.scopes.length := by
  rw [← temps_length, h.temps, temps_length]

theorem Cleared.column_other {n : Name} {b : Nat} {sh sh' : Shell} (h : Cleared n b sh sh')
    (m : Name) (hm : m ≠ n) : column m sh'.scopes = column m sh.scopes := by
  induction h with
  | refl => rfl
  | drop sh sh' i v hi ht hv _ ih => rw [ih, dropVar_column_other _ _ _ _ _ hm]

/-- Nothing but temporary variables is lost. -/
theorem Cleared.column {n : Name} {b : Nat} {sh sh' : Shell} (h : Cleared n b sh sh') (j : Nat) :
    (column n sh'.scopes)[j]? = (column n sh.scopes)[j]? ∨
      ((column n sh'.scopes)[j]? = some none ∧ j ≤ b ∧ (Variable.temps sh.scopes)[j]? = some true) := by
  induction h with
  | refl => exact Or.inl rfl
  | drop sh sh' i v hi ht hv _ ih =>
    rw [dropVar_temps, dropVar_column] at ih
    by_cases hij : i = j
    · subst hij
      have hl : i < (Variable.column n sh.scopes).length := by
        rw [List.getElem?_eq_some_iff] at hv
        exact hv.1
      rw [List.getElem?_set_self hl] at ih
      rcases ih with ih | ih
      · exact Or.inr ⟨ih, hi, ht⟩
      · exact Or.inr ih
    · rw [List.getElem?_set_ne hij] at ih
      exact ih

theorem Cleared.fields {n : Name} {b : Nat} {sh sh' : Shell} (h : Cleared n b sh sh') :
    sh'.allexport = sh.allexport ∧ (sh'.randomActive = true → sh.randomActive = true) := by
  induction h with
  | refl => exact ⟨rfl, id⟩
  | drop sh sh' i v hi ht hv _ ih =>
    refine ⟨ih.1.trans ?_, fun h => ?_⟩
    · unfold dropVar reexport
      simp only []
      split <;> rfl
    · have := ih.2 h
      unfold dropVar reexport at this
      simp only [] at this
      split at this <;> simp [unsetHook] at this <;> exact this.1

theorem scope_column (ss : List Scope) (i : Nat) (s : Scope) (n : Name) (h : ss[i]? = some s) :
    (column n ss)[i]? = some (get s.vars n) ∧ (temps ss)[i]? = some s.temp := by
  constructor
  · simp [column, h]
  · simp [temps, h]

/-- What `newGlobal` finds. -/
structure GlobalFound (n : Name) (sh : Shell) (f : Found) : Prop where
  cleared : Cleared n f.idx sh f.sh
  below : ∀ j, j < f.idx → (column n f.sh.scopes)[j]? = some none
  here : ((column n f.sh.scopes)[f.idx]? = some (some f.var) ∧
      (temps f.sh.scopes)[f.idx]? = some false) ∨
    ((column n f.sh.scopes)[f.idx]? = some none ∧ f.var = .fresh ∧
      f.idx + 1 = f.sh.scopes.length)

theorem newGlobalLoop_spec (n : Name) (k i : Nat) (sh : Shell) (f : Found)
    (hik : i + k = sh.scopes.length) (hpos : 0 < sh.scopes.length)
    (hb : ∀ j, j < i → (column n sh.scopes)[j]? = some none)
    (h : newGlobalLoop n k i sh = some f) : GlobalFound n sh f ∧ i ≤ f.idx + 1 := by
  induction k generalizing i sh with
  | zero =>
    rw [newGlobalLoop] at h
    cases h
    simp only [Nat.add_zero] at hik
    refine ⟨⟨.refl _, fun j hj => hb j ?_, Or.inr ⟨hb _ ?_, rfl, ?_⟩⟩, ?_⟩ <;>
      simp only at * <;> omega
  | succ k ih =>
    rw [newGlobalLoop] at h
    cases hs : sh.scopes[i]? with
    | none => simp [hs] at h
    | some s =>
      simp only [hs] at h
      obtain ⟨hc, ht⟩ := scope_column _ _ _ n hs
      cases hg : get s.vars n with
      | none =>
        simp only [hg] at h
        rw [hg] at hc
        have := ih (i + 1) sh (by omega) hpos (fun j hj => by
          by_cases hji : j = i
          · rw [hji]; exact hc
          · exact hb j (by omega)) h
        exact ⟨this.1, by omega⟩
      | some v =>
        simp only [hg] at h
        rw [hg] at hc
        cases hst : s.temp with
        | true =>
          simp only [hst, if_true] at h
          cases hnd : v.nodelete with
          | true => simp [hnd] at h
          | false =>
            simp only [hnd, Bool.false_eq_true, if_false] at h
            have hl : (dropVar sh i n v).scopes.length = sh.scopes.length := by
              rw [← temps_length, dropVar_temps, temps_length]
            have hli : i < (column n sh.scopes).length := by
              rw [column_length]; omega
            have := ih (i + 1) (dropVar sh i n v) (by omega) (by omega) (fun j hj => by
              rw [dropVar_column]
              by_cases hji : j = i
              · rw [hji, List.getElem?_set_self hli]
              · rw [List.getElem?_set_ne (fun e => hji e.symm)]
                exact hb j (by omega)) h
            obtain ⟨g, hge⟩ := this
            rw [hst] at ht
            exact ⟨⟨.drop _ _ i v (by omega) ht hc g.cleared, g.below, g.here⟩, by omega⟩
        | false =>
          simp only [hst, Bool.false_eq_true, if_false] at h
          cases h
          rw [hst] at ht
          exact ⟨⟨.refl _, hb, Or.inl ⟨hc, ht⟩⟩, Nat.le_succ i⟩

theorem newGlobal_spec (n : Name) (sh : Shell) (f : Found) (hpos : 0 < sh.scopes.length)
    (h : newGlobal sh n = some f) : GlobalFound n sh f :=
  (newGlobalLoop_spec n _ 0 sh f (by omega) hpos (fun j hj => absurd hj (Nat.not_lt_zero j)) h).1

/-- What `newLocal` finds. -/
structure LocalFound (n : Name) (sh : Shell) (f : Found) : Prop where
  cleared : Cleared n f.idx sh f.sh
  below : ∀ j, j < f.idx → (column n f.sh.scopes)[j]? = some none ∧
    (temps f.sh.scopes)[j]? = some true
  nontemp : (temps f.sh.scopes)[f.idx]? = some false
  here : (column n f.sh.scopes)[f.idx]? = some (some f.var) ∨
    ((column n f.sh.scopes)[f.idx]? = some none ∧ f.var = .fresh)

theorem newLocalLoop_spec (n : Name) (k i : Nat) (sh : Shell) (f : Found)
    (hik : i + k = sh.scopes.length)
    (hb : ∀ j, j < i → (column n sh.scopes)[j]? = some none ∧ (temps sh.scopes)[j]? = some true)
    (h : newLocalLoop n k i sh = some f) : LocalFound n sh f ∧ i ≤ f.idx := by
  induction k generalizing i sh with
  | zero => simp [newLocalLoop] at h
  | succ k ih =>
    rw [newLocalLoop] at h
    cases hs : sh.scopes[i]? with
    | none => simp [hs] at h
    | some s =>
      simp only [hs] at h
      obtain ⟨hc, ht⟩ := scope_column _ _ _ n hs
      cases hst : s.temp with
      | true =>
        simp only [hst, if_true] at h
        rw [hst] at ht
        cases hg : get s.vars n with
        | none =>
          simp only [hg] at h
          rw [hg] at hc
          have := ih (i + 1) sh (by omega) (fun j hj => by
            by_cases hji : j = i
            · rw [hji]; exact ⟨hc, ht⟩
            · exact hb j (by omega)) h
          exact ⟨this.1, by omega⟩
        | some v =>
          simp only [hg] at h
          rw [hg] at hc
          have hl : (dropVar sh i n v).scopes.length = sh.scopes.length := by
            rw [← temps_length, dropVar_temps, temps_length]
          have hli : i < (column n sh.scopes).length := by
            rw [column_length]; omega
          have := ih (i + 1) (dropVar sh i n v) (by omega) (fun j hj => by
            rw [dropVar_column, dropVar_temps]
            by_cases hji : j = i
            · rw [hji, List.getElem?_set_self hli]
              exact ⟨rfl, ht⟩
            · rw [List.getElem?_set_ne (fun e => hji e.symm)]
              exact hb j (by omega)) h
          obtain ⟨g, hge⟩ := this
          exact ⟨⟨.drop _ _ i v (by omega) ht hc g.cleared, g.below, g.nontemp, g.here⟩, by omega⟩
      | false =>
        simp only [hst, Bool.false_eq_true, if_false] at h
        rw [hst] at ht
        cases hg : get s.vars n with
        | none =>
          simp only [hg] at h
          cases h
          rw [hg] at hc
          exact ⟨⟨.refl _, hb, ht, Or.inr ⟨hc, rfl⟩⟩, Nat.le_refl i⟩
        | some v =>
          simp only [hg] at h
          cases h
          rw [hg] at hc
          exact ⟨⟨.refl _, hb, ht, Or.inl hc⟩, Nat.le_refl i⟩

theorem newLocal_spec (n : Name) (sh : Shell) (f : Found)
    (h : newLocal sh n = some f) : LocalFound n sh f :=
  (newLocalLoop_spec n _ 0 sh f (by omega) (fun j hj => absurd hj (Nat.not_lt_zero j)) h).1

/-- What `newTemporary` finds. -/
theorem newTemporary_spec (n : Name) (sh : Shell) (f : Found) (h : newTemporary sh n = some f) :
    f.sh = sh ∧
      ((locate sh.scopes n = some (f.idx, f.var) ∧ f.var.readonly = true) ∨
        (f.idx = 0 ∧ (temps sh.scopes)[0]? = some true ∧
          (∀ i v, locate sh.scopes n = some (i, v) → v.readonly = false) ∧
          ((column n sh.scopes)[0]? = some (some f.var) ∨
            ((column n sh.scopes)[0]? = some none ∧ f.var = .fresh)))) := by
  unfold newTemporary at h
  cases hs : sh.scopes with
  | nil => simp [hs] at h
  | cons s ss =>
    simp only [hs] at h
    cases ht : s.temp with
    | false => simp [ht] at h
    | true =>
      simp only [ht, if_true] at h
      have key : ∀ g, topVariable sh s n = g → g.sh = sh ∧ g.idx = 0 ∧
          ((column n (s :: ss))[0]? = some (some g.var) ∨
            ((column n (s :: ss))[0]? = some none ∧ g.var = .fresh)) := by
        intro g hg
        unfold topVariable at hg
        cases hv : get s.vars n with
        | none =>
          simp only [hv] at hg
          subst hg
          exact ⟨rfl, rfl, Or.inr ⟨by simp [column, hv], rfl⟩⟩
        | some v =>
          simp only [hv] at hg
          subst hg
          exact ⟨rfl, rfl, Or.inl (by simp [column, hv])⟩
      have ht0 : (temps (s :: ss))[0]? = some true := by simp [temps, ht]
      cases hl : locate (s :: ss) n with
      | none =>
        simp only [hl, Option.some.injEq] at h
        obtain ⟨h1, h2, h3⟩ := key f h
        exact ⟨h1, Or.inr ⟨h2, ht0, (by intro i v hiv; simp at hiv), h3⟩⟩
      | some p =>
        obtain ⟨i, v⟩ := p
        simp only [hl] at h
        cases hr : v.readonly with
        | true =>
          simp only [hr, if_true, Option.some.injEq] at h
          subst h
          exact ⟨rfl, Or.inl ⟨rfl, hr⟩⟩
        | false =>
          simp only [hr, Bool.false_eq_true, if_false, Option.some.injEq] at h
          obtain ⟨h1, h2, h3⟩ := key f h
          refine ⟨h1, Or.inr ⟨h2, ht0, ?_, h3⟩⟩
          intro i' v' hiv
          cases hiv
          exact hr

end Yash.Variable
