import Verif.Variable.Inv
/-! # Read-only variables, the environment and the frame of the operations -/
set_option autoImplicit false

namespace Yash.Variable

open Spec

/-! ### Frame -/

theorem Outcome.other {seed : Word → Bool} {sh sh' : Shell} {n : Name} {op : Op} {b : Bool}
    (h : Outcome seed sh n op sh' b) :
    temps sh'.scopes = temps sh.scopes ∧
      ∀ m, m ≠ n → column m sh'.scopes = column m sh.scopes := by
  cases h with
  | same => exact ⟨rfl, fun _ _ => rfl⟩
  | refused val k exp f _ g => exact ⟨g.cleared.temps, g.cleared.column_other⟩
  | assigned val k exp f e _ g =>
    refine ⟨?_, fun m hm => ?_⟩
    · rw [reexportIf_scopes, store_temps, g.cleared.temps]
    · rw [reexportIf_scopes, store_column_other _ _ _ _ _ _ hm, g.cleared.column_other m hm]
  | typeset val t f _ g =>
    refine ⟨?_, fun m hm => ?_⟩
    · rw [reexportIf_scopes, store_temps, g.cleared.temps]
    · rw [reexportIf_scopes, store_column_other _ _ _ _ _ _ hm, g.cleared.column_other m hm]
  | edited _ i v val u =>
    refine ⟨?_, fun m hm => ?_⟩
    · rw [reexportIf_scopes, putVar_temps]
    · rw [reexportIf_scopes, putVar_column_other _ _ _ _ _ hm]
  | removed _ i v =>
    exact ⟨dropVar_temps _ _ _ _, fun m hm => dropVar_column_other _ _ _ _ _ hm⟩

theorem Outcome.length {seed : Word → Bool} {sh sh' : Shell} {n : Name} {op : Op} {b : Bool}
    (h : Outcome seed sh n op sh' b) : sh'.scopes.length = sh.scopes.length := by
  rw [← temps_length, h.other.1, temps_length]

/-! ### Read-only variables -/

/-- A variable that may not change any more. -/
def Fixed (val : Value) (o : Option (Option Var)) : Prop :=
  ∃ v, o = some (some v) ∧ v.value = val ∧ v.readonly = true ∧ v.getter = .none

theorem Cleared.fixed {n : Name} {b : Nat} {sh sh' : Shell} (h : Cleared n b sh sh')
    (hs : SaneC sh) (i : Nat) (v : Var) (hv : (Variable.column n sh.scopes)[i]? = some (some v))
    (hr : v.readonly = true) : (Variable.column n sh'.scopes)[i]? = some (some v) := by
  rcases h.column i with hc | ⟨_, _, hc⟩
  · rw [hc, hv]
  · have h1 := hs.temporary i n v hv hc
    rw [hs.kept i n v hv hr] at h1
    cases h1

theorem Outcome.fixed {seed : Word → Bool} {sh sh' : Shell} {n : Name} {op : Op} {b : Bool}
    (h : Outcome seed sh n op sh' b) (hs : SaneC sh) (i : Nat) (val : Value)
    (hf : Fixed val (column n sh.scopes)[i]?) (hop : ∀ e, op ≠ .shift n e) :
    Fixed val (column n sh'.scopes)[i]? := by
  obtain ⟨v, hv, hval, hr, hg⟩ := hf
  cases h with
  | same => exact ⟨v, hv, hval, hr, hg⟩
  | refused val' k exp f _ g => exact ⟨v, g.cleared.fixed hs i v hv hr, hval, hr, hg⟩
  | assigned val' k exp f e _ g hro =>
    have hc := g.cleared.fixed hs i v hv hr
    refine ⟨v, ?_, hval, hr, hg⟩
    rw [reexportIf_scopes, store_column]
    by_cases hi : f.idx = i
    · exfalso
      subst hi
      rcases g.here with h | ⟨h, _⟩
      · rw [hc] at h
        cases h
        rw [hr] at hro
        cases hro
      · rw [hc] at h
        cases h
    · rw [List.getElem?_set_ne hi, hc]
  | typeset val' t f _ g =>
    have hc := g.cleared.fixed hs i v hv hr
    rw [reexportIf_scopes, store_column]
    by_cases hi : f.idx = i
    · subst hi
      rcases g.here with h | ⟨h, _⟩
      · rw [hc] at h
        have hfv : v = f.var := by
          simpa using h
        refine ⟨stored seed f.sh n (typesetVar f.var val' t), ?_, ?_, ?_, ?_⟩
        · rw [List.getElem?_set_self]
          rw [List.getElem?_eq_some_iff] at hc
          exact hc.1
        · rw [(stored_fields _ _ _ _).1, ← hfv]
          unfold typesetVar
          cases val' <;> simp [hr, hval]
        · rw [(stored_fields _ _ _ _).2.2.1, ← hfv]
          simp [typesetVar, hr]
        · have h1 : (typesetVar f.var val' t).getter = .none := by
            rw [← hfv]
            simp [typesetVar, hr, hg]
          unfold stored
          cases hra : f.sh.randomActive with
          | false => simp [h1]
          | true =>
            have h2 : n ≠ "RANDOM".toList := by
              rintro rfl
              have := hs.random (g.cleared.fields.2 hra) f.idx v hv
              rw [hg] at this
              cases this
            simp only [Bool.true_and, beq_iff_eq, h2, if_false]
            exact h1
      · rw [hc] at h
        cases h
    · refine ⟨v, ?_, hval, hr, hg⟩
      rw [List.getElem?_set_ne hi, hc]
  | edited _ j w val' u _ hl ho =>
    rw [reexportIf_scopes, putVar_column]
    by_cases hi : j = i
    · exfalso
      subst hi
      have := ((locate_column _ _ _ _).mp hl).1
      rw [hv] at this
      cases this
      rcases ho with ho | ho | ⟨e, ho⟩
      · rw [hr] at ho; cases ho
      · exact ho hg
      · exact hop e ho
    · refine ⟨v, ?_, hval, hr, hg⟩
      rw [List.getElem?_set_ne hi, hv]
  | removed _ j w hl hd =>
    rw [dropVar_column]
    by_cases hi : j = i
    · exfalso
      subst hi
      have := ((locate_column _ _ _ _).mp hl).1
      rw [hv] at this
      cases this
      rw [hs.kept _ _ _ hv hr] at hd
      cases hd
    · refine ⟨v, ?_, hval, hr, hg⟩
      rw [List.getElem?_set_ne hi, hv]

/-! ### The exported value -/

theorem exportedIn_some (os : List (Option Var)) (w : Word) :
    exportedIn os = some w ↔
      ∃ (i : Nat) (v : Var), os[i]? = some (some v) ∧ v.exported = true ∧ v.exportValue = some w ∧
        ∀ (j : Nat) (u : Var), j < i → os[j]? = some (some u) → u.exported = true →
          u.exportValue = none := by
  induction os with
  | nil => simp [exportedIn]
  | cons o os ih =>
    have shift : (∀ v, o = some v → v.exported = true → v.exportValue = none) →
        ((∃ (i : Nat) (v : Var), os[i]? = some (some v) ∧ v.exported = true ∧
          v.exportValue = some w ∧ ∀ (j : Nat) (u : Var), j < i → os[j]? = some (some u) →
            u.exported = true → u.exportValue = none) ↔
        ∃ (i : Nat) (v : Var), (o :: os)[i]? = some (some v) ∧ v.exported = true ∧
          v.exportValue = some w ∧ ∀ (j : Nat) (u : Var), j < i → (o :: os)[j]? = some (some u) →
            u.exported = true → u.exportValue = none) := by
      intro ho
      constructor
      · rintro ⟨i, v, h1, h2, h3, h4⟩
        refine ⟨i + 1, v, by simpa using h1, h2, h3, fun j u hj hu he => ?_⟩
        cases j with
        | zero => exact ho u (by simpa using hu) he
        | succ j => exact h4 j u (by omega) (by simpa using hu) he
      · rintro ⟨i, v, h1, h2, h3, h4⟩
        cases i with
        | zero =>
          have := ho v (by simpa using h1) h2
          rw [h3] at this
          cases this
        | succ i =>
          exact ⟨i, v, by simpa using h1, h2, h3, fun j u hj hu he =>
            h4 (j + 1) u (by omega) (by simpa using hu) he⟩
    cases o with
    | none =>
      rw [exportedIn, ih]
      exact shift (fun v h => by cases h)
    | some v =>
      rw [exportedIn]
      cases he : v.exported with
      | false =>
        simp only [Bool.false_eq_true, if_false]
        rw [ih]
        exact shift (fun u hu hx => by cases hu; rw [he] at hx; cases hx)
      | true =>
        simp only [if_true]
        cases hx : v.exportValue with
        | none =>
          simp only []
          rw [ih]
          exact shift (fun u hu _ => by cases hu; exact hx)
        | some w' =>
          simp only []
          constructor
          · intro h
            cases h
            exact ⟨0, v, rfl, he, hx, fun j u hj => absurd hj (Nat.not_lt_zero j)⟩
          · rintro ⟨i, u, h1, h2, h3, h4⟩
            cases i with
            | zero =>
              simp only [List.getElem?_cons_zero, Option.some.injEq] at h1
              subst h1
              rw [hx] at h3
              exact h3
            | succ i =>
              have := h4 0 v (Nat.succ_pos i) rfl he
              rw [hx] at this
              cases this

theorem joinColon_eq (ws : List Word) : joinColon ws = List.intercalate [':'] ws := by
  induction ws with
  | nil => rfl
  | cons w ws ih =>
    cases ws with
    | nil => simp [joinColon]
    | cons x xs =>
      rw [joinColon, ih]
      simp [List.intercalate, List.intersperse]
      intro h; cases h

theorem exportValue_text (v : Var) : v.exportValue = text v := by
  unfold Var.exportValue text
  cases v.value with
  | scalar w => cases w <;> rfl
  | array ws => simp [joinColon_eq]

theorem exports_column (sh : Shell) (n : Name) (w : Word) :
    Exports sh n w ↔ exportedIn (column n sh.scopes) = some w := by
  rw [exportedIn_some]
  unfold Exports
  have hl := column_length n sh.scopes
  constructor
  · rintro ⟨d, v, h1, h2, h3, h4⟩
    rw [varAt_column, index_level] at h1
    refine ⟨_, v, h1.2, h2, by rw [exportValue_text]; exact h3, fun j u hj hu he => ?_⟩
    rw [exportValue_text]
    have h5 := (level_index _ _ _).mp hu
    refine h4 ((column n sh.scopes).length - 1 - j) u (by omega) ?_ he
    rw [varAt_column]
    exact h5.2
  · rintro ⟨i, v, h1, h2, h3, h4⟩
    have h5 := (level_index _ _ _).mp h1
    refine ⟨(column n sh.scopes).length - 1 - i, v, ?_, h2, by rw [← exportValue_text]; exact h3,
      fun e u he hu hx => ?_⟩
    · rw [varAt_column]
      exact h5.2
    · rw [varAt_column, index_level] at hu
      rw [← exportValue_text]
      exact h4 _ u (by omega) hu.2 hx

/-- The environment agrees with the variables named `n`. -/
def AgreesOn (n : Name) (sh : Shell) : Prop :=
  get sh.environ n = exportedIn (column n sh.scopes)

theorem environmentAgrees_iff (sh : Shell) :
    EnvironmentAgrees sh ↔ ∀ n, settable n = true → AgreesOn n sh := by
  have hs : ∀ n : Name, settable n = true ↔ n ≠ [] ∧ '=' ∉ n := by
    intro n
    simp [settable]
  constructor
  · intro h n hn
    obtain ⟨h1, h2⟩ := (hs n).mp hn
    unfold AgreesOn
    apply Option.ext
    intro w
    rw [← exports_column, ← h n h1 h2 w, environAt, get_eq_find]
  · intro h n h1 h2 w
    rw [exports_column, ← h n ((hs n).mpr ⟨h1, h2⟩), environAt, get_eq_find]

theorem agreesOn_update (sh : Shell) (n : Name) (hn : settable n = true) :
    AgreesOn n { sh with environ := updateEnviron sh.scopes sh.environ n } := by
  unfold AgreesOn
  simp only []
  rw [updateEnviron_get, if_pos ⟨rfl, hn⟩, exportedValue_column]

theorem reexportIf_environ_other (b : Bool) (sh : Shell) (n m : Name) (h : m ≠ n) :
    get (reexportIf b sh n).environ m = get sh.environ m := by
  unfold reexportIf
  split
  · simp only []
    rw [updateEnviron_get, if_neg (fun hc => h hc.1)]
  · rfl

theorem agreesOn_reexportIf (b : Bool) (sh : Shell) (n : Name) (hn : settable n = true)
    (h : b = false → AgreesOn n sh) : AgreesOn n (reexportIf b sh n) := by
  unfold reexportIf
  cases b with
  | true => exact agreesOn_update sh n hn
  | false => exact h rfl

theorem dropVar_environ_other (sh : Shell) (i : Nat) (n m : Name) (v : Var) (h : m ≠ n) :
    get (dropVar sh i n v).environ m = get sh.environ m := by
  unfold dropVar reexport
  simp only []
  split
  · simp only [unsetHook]
    rw [updateEnviron_get, if_neg (fun hc => h hc.1)]
  · rfl

theorem dropVar_agrees (sh : Shell) (i : Nat) (n m : Name) (v : Var) (hm : settable m = true)
    (hv : (column n sh.scopes)[i]? = some (some v)) (h : AgreesOn m sh) :
    AgreesOn m (dropVar sh i n v) := by
  by_cases hmn : m = n
  · subst hmn
    cases he : v.exported with
    | true =>
      unfold dropVar reexport
      simp only [he, if_true]
      exact agreesOn_update _ m hm
    | false =>
      unfold AgreesOn
      rw [dropVar_column, exportedIn_set _ i (some v) none hv
        (fun u hu => by cases hu; exact he) (fun u hu => by cases hu)]
      rw [← h]
      unfold dropVar reexport
      simp [he, unsetHook]
  · unfold AgreesOn
    rw [dropVar_environ_other _ _ _ _ _ hmn, dropVar_column_other _ _ _ _ _ hmn]
    exact h

theorem Cleared.agrees {n : Name} {b : Nat} {sh sh' : Shell} (h : Cleared n b sh sh') (m : Name)
    (hm : settable m = true) (ha : AgreesOn m sh) : AgreesOn m sh' := by
  induction h with
  | refl => exact ha
  | drop sh sh' i v hi ht hv _ ih => exact ih (dropVar_agrees sh i n m v hm hv ha)

theorem Cleared.environ_other {n : Name} {b : Nat} {sh sh' : Shell} (h : Cleared n b sh sh')
    (m : Name) (hm : m ≠ n) : get sh'.environ m = get sh.environ m := by
  induction h with
  | refl => rfl
  | drop sh sh' i v hi ht hv _ ih => rw [ih, dropVar_environ_other _ _ _ _ _ hm]

theorem Outcome.environ_other {seed : Word → Bool} {sh sh' : Shell} {n : Name} {op : Op} {b : Bool}
    (h : Outcome seed sh n op sh' b) (m : Name) (hm : m ≠ n) :
    get sh'.environ m = get sh.environ m := by
  cases h with
  | same => rfl
  | refused val k exp f _ g => exact g.cleared.environ_other m hm
  | assigned val k exp f e _ g =>
    rw [reexportIf_environ_other _ _ _ _ hm, store_environ, g.cleared.environ_other m hm]
  | typeset val t f _ g =>
    rw [reexportIf_environ_other _ _ _ _ hm, store_environ, g.cleared.environ_other m hm]
  | edited _ i v val u => rw [reexportIf_environ_other _ _ _ _ hm]; rfl
  | removed _ i v => exact dropVar_environ_other _ _ _ _ _ hm

/-- The environment stays in agreement. -/
theorem Outcome.agrees {seed : Word → Bool} {sh sh' : Shell} {n : Name} {op : Op} {b : Bool}
    (h : Outcome seed sh n op sh' b) (m : Name) (hm : settable m = true) (ha : AgreesOn m sh)
    (hop : m = n → ∀ i v, locate sh.scopes n = some (i, v) →
      ((∃ e, op = .shift n e) ∨ (∃ e, op = .arrayEdit n e)) → v.exported = false) :
    AgreesOn m sh' := by
  by_cases hmn : m = n
  · subst hmn
    cases h with
    | same => exact ha
    | refused val k exp f _ g => exact g.cleared.agrees m hm ha
    | assigned val k exp f e _ g hr he =>
      refine agreesOn_reexportIf _ _ _ hm fun hef => ?_
      have hfe : f.var.exported = false := by
        cases hx : f.var.exported with
        | false => rfl
        | true => rw [hx] at he; simp [hef] at he
      have hag := g.cleared.agrees m hm ha
      unfold AgreesOn at hag ⊢
      rw [store_environ, store_column, hag]
      have hsil : Silent (some (stored seed f.sh m ⟨val, e, false, f.var.nodelete, .none⟩)) := by
        intro u hu
        cases hu
        rw [(stored_fields _ _ _ _).2.1]
        exact hef
      rcases g.here with h | ⟨h, _⟩
      · exact (exportedIn_set _ _ _ _ h (fun u hu => by cases hu; exact hfe) hsil).symm
      · exact (exportedIn_set _ _ _ _ h (fun u hu => by cases hu) hsil).symm
    | typeset val t f _ g =>
      refine agreesOn_reexportIf _ _ _ hm fun hef => ?_
      simp only [Bool.or_eq_false_iff, bne_eq_false_iff_eq] at hef
      obtain ⟨h1, h2⟩ := hef
      have hag := g.cleared.agrees m hm ha
      unfold AgreesOn at hag ⊢
      rw [store_environ, store_column, hag]
      obtain ⟨s1, s2, _, _⟩ := stored_fields seed f.sh m (typesetVar f.var val t)
      cases hx : f.var.exported with
      | false =>
        have hsil : Silent (some (stored seed f.sh m (typesetVar f.var val t))) := by
          intro u hu
          cases hu
          rw [s2, ← h1, hx]
        rcases g.here with h | ⟨h, _⟩
        · exact (exportedIn_set _ _ _ _ h (fun u hu => by cases hu; exact hx) hsil).symm
        · exact (exportedIn_set _ _ _ _ h (fun u hu => by cases hu) hsil).symm
      | true =>
        have hvn : val = none := by
          cases val with
          | none => rfl
          | some w => rw [← h1, hx] at h2; cases h2
        rcases g.here with h | ⟨_, h⟩
        · refine (exportedIn_set_same _ _ _ _ h ?_ ?_).symm
          · rw [s2, ← h1]
          · rw [s1, hvn]
            rfl
        · rw [h] at hx
          cases hx
    | edited _ i v val u _ hl _ hu =>
      refine agreesOn_reexportIf _ _ _ hm fun huf => ?_
      have hve : v.exported = false := by
        rcases hu with hu | hu
        · rw [← hu]; exact huf
        · exact hop rfl i v hl hu
      unfold AgreesOn at ha ⊢
      rw [putVar_column]
      refine ha.trans (exportedIn_set _ _ _ _ ((locate_column _ _ _ _).mp hl).1
        (fun u hu => ?_) (fun u hu => ?_)).symm
      · cases hu; exact hve
      · cases hu; exact hve
    | removed _ i v hl =>
      exact dropVar_agrees sh i m m v hm ((locate_column _ _ _ _).mp hl).1 ha
  · unfold AgreesOn at ha ⊢
    rw [h.environ_other m hmn, h.other.2 m hmn]
    exact ha

theorem reexport_agrees (sh : Shell) (n m : Name) (v : Var) (hm : settable m = true)
    (h : AgreesOn m sh ∨ (m = n ∧ v.exported = true)) : AgreesOn m (reexport sh n v) := by
  by_cases hmn : m = n
  · subst hmn
    cases he : v.exported with
    | true =>
      unfold reexport
      simp only [he, if_true]
      exact agreesOn_update _ m hm
    | false =>
      rcases h with h | ⟨_, h⟩
      · unfold AgreesOn at h ⊢
        rw [reexport_scopes, column_map_reset]
        unfold reexport
        simp only [he, Bool.false_eq_true, if_false]
        exact h
      · rw [he] at h
        cases h
  · rcases h with h | ⟨h, _⟩
    · unfold AgreesOn at h ⊢
      rw [reexport_scopes, column_map_reset, ← h]
      unfold reexport
      simp only []
      split
      · simp only [unsetHook]
        rw [updateEnviron_get, if_neg (fun hc => hmn hc.1)]
      · rfl
    · exact absurd h hmn

theorem reexportAll_agrees (vars : Map Var) (sh : Shell) (m : Name) (hm : settable m = true)
    (h : AgreesOn m sh ∨ ∃ v, (m, v) ∈ vars ∧ v.exported = true) :
    AgreesOn m (reexportAll vars sh) := by
  induction vars generalizing sh with
  | nil =>
    rcases h with h | ⟨v, h, _⟩
    · exact h
    · cases h
  | cons e vars ih =>
    rw [reexportAll]
    rcases h with h | ⟨v, h, he⟩
    · exact ih _ (Or.inl (reexport_agrees sh e.1 m e.2 hm (Or.inl h)))
    · rw [List.mem_cons] at h
      rcases h with h | h
      · refine ih _ (Or.inl (reexport_agrees sh e.1 m e.2 hm (Or.inr ?_)))
        rw [← h]
        exact ⟨rfl, he⟩
      · exact ih _ (Or.inr ⟨v, h, he⟩)

theorem closeScope_agrees (sh sh' : Shell) (m : Name) (hm : settable m = true)
    (ha : AgreesOn m sh) (h : closeScope sh = some sh') : AgreesOn m sh' := by
  unfold closeScope at h
  cases hs : sh.scopes with
  | nil => simp [hs] at h
  | cons s ss =>
    simp only [hs] at h
    cases ss with
    | nil => simp at h
    | cons t ts =>
      simp only [List.isEmpty_cons, Bool.false_eq_true, if_false, Option.some.injEq] at h
      subst h
      refine reexportAll_agrees s.vars _ m hm ?_
      unfold AgreesOn at ha ⊢
      rw [hs, column, List.map_cons] at ha
      cases hg : get s.vars m with
      | none =>
        left
        rw [hg, exportedIn] at ha
        exact ha
      | some v =>
        cases he : v.exported with
        | true => exact Or.inr ⟨v, get_mem _ _ _ hg, he⟩
        | false =>
          left
          rw [hg, exportedIn] at ha
          simp only [he, Bool.false_eq_true, if_false] at ha
          exact ha

end Yash.Variable
