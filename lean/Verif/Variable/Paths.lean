import Verif.Variable.Frame
/-! # The path arrays -/
set_option autoImplicit false

namespace Yash.Variable

open Spec

/-! ### Colons and repetitions -/

theorem splitColon_ne (w : Word) : splitColon w ≠ [] := by
  cases w with
  | nil => simp [splitColon]
  | cons c w =>
    rw [splitColon]
    split
    · simp
    · split <;> simp

theorem splitColon_part (p w : Word) (hp : ':' ∉ p) :
    splitColon (p ++ ':' :: w) = p :: splitColon w := by
  induction p with
  | nil => simp [splitColon]
  | cons c p ih =>
    simp only [List.mem_cons, not_or] at hp
    rw [List.cons_append, splitColon, if_neg (fun h => hp.1 h.symm), ih hp.2]

theorem splitColon_last (p : Word) (hp : ':' ∉ p) : splitColon p = [p] := by
  induction p with
  | nil => rfl
  | cons c p ih =>
    simp only [List.mem_cons, not_or] at hp
    rw [splitColon, if_neg (fun h => hp.1 h.symm), ih hp.2]

theorem splitColon_join (ps : List Word) (hne : ps ≠ []) (hp : ∀ x ∈ ps, ':' ∉ x) :
    splitColon (joinColon ps) = ps := by
  induction ps with
  | nil => exact absurd rfl hne
  | cons p ps ih =>
    cases ps with
    | nil => exact splitColon_last p (hp p List.mem_cons_self)
    | cons q qs =>
      rw [joinColon, splitColon_part p _ (hp p List.mem_cons_self),
        ih (by simp) (fun x hx => hp x (List.mem_cons_of_mem _ hx))]
      intro h; cases h

theorem joinColon_cons (c : Char) (x : Word) (xs : List Word) :
    joinColon ((c :: x) :: xs) = c :: joinColon (x :: xs) := by
  cases xs with
  | nil => rfl
  | cons y ys =>
    show (c :: x) ++ ':' :: joinColon (y :: ys) = c :: (x ++ ':' :: joinColon (y :: ys))
    rfl

theorem splitColon_spec (w : Word) :
    joinColon (splitColon w) = w ∧ ∀ x ∈ splitColon w, ':' ∉ x := by
  induction w with
  | nil => simp [splitColon, joinColon]
  | cons c w ih =>
    rw [splitColon]
    have hne := splitColon_ne w
    by_cases hc : c = ':'
    · rw [if_pos hc]
      cases hs : splitColon w with
      | nil => exact absurd hs hne
      | cons x xs =>
        rw [hs] at ih
        refine ⟨?_, fun y hy => ?_⟩
        · rw [joinColon, ih.1, hc]
          · rfl
          · intro h; cases h
        · rw [List.mem_cons] at hy
          rcases hy with rfl | hy
          · simp
          · exact ih.2 y hy
    · rw [if_neg hc]
      cases hs : splitColon w with
      | nil => exact absurd hs hne
      | cons x xs =>
        rw [hs] at ih
        simp only []
        refine ⟨by rw [joinColon_cons, ih.1], fun y hy => ?_⟩
        rw [List.mem_cons] at hy
        rcases hy with rfl | hy
        · rw [List.mem_cons, not_or]
          exact ⟨fun h => hc h.symm, ih.2 x List.mem_cons_self⟩
        · exact ih.2 y (List.mem_cons_of_mem _ hy)

/-- The elements of `ws` that are neither in `seen` nor repetitions. -/
def newOnes : List Word → List Word → List Word
  | _, [] => []
  | seen, w :: ws => if w ∈ seen then newOnes seen ws else w :: newOnes (seen ++ [w]) ws

theorem addNoDup_eq (ws acc : List Word) : addNoDup acc ws = acc ++ newOnes acc ws := by
  induction ws generalizing acc with
  | nil => simp [addNoDup, newOnes]
  | cons w ws ih =>
    rw [addNoDup, newOnes]
    by_cases h : w ∈ acc
    · rw [if_pos h, if_pos (by simpa using h), ih]
    · rw [if_neg h, if_neg (by simpa using h), ih, List.append_assoc]
      rfl

theorem newOnes_congr (ws a b : List Word) (h : ∀ x, x ∈ a ↔ x ∈ b) :
    newOnes a ws = newOnes b ws := by
  induction ws generalizing a b with
  | nil => rfl
  | cons w ws ih =>
    rw [newOnes, newOnes, ih a b h, ih (a ++ [w]) (b ++ [w]) (fun x => by simp [h])]
    by_cases hw : w ∈ a
    · rw [if_pos hw, if_pos ((h w).mp hw)]
    · rw [if_neg hw, if_neg (fun hc => hw ((h w).mpr hc))]

theorem newOnes_filter (pre ws : List Word) :
    newOnes pre ws =
      ((ws.zipIdx pre.length).filter fun e => decide (e.1 ∉ (pre ++ ws).take e.2)).map (·.1) := by
  induction ws generalizing pre with
  | nil => rfl
  | cons w ws ih =>
    have h1 := ih (pre ++ [w])
    simp only [List.append_assoc, List.cons_append, List.nil_append, List.length_append,
      List.length_cons, List.length_nil, Nat.zero_add] at h1
    rw [newOnes, List.zipIdx_cons, List.filter_cons]
    have htake : (pre ++ w :: ws).take pre.length = pre := by simp
    by_cases hw : w ∈ pre
    · rw [if_pos hw, if_neg (by simp [hw]), ← h1]
      refine newOnes_congr ws _ _ fun x => ?_
      simp only [List.mem_append, List.mem_singleton]
      constructor
      · exact Or.inl
      · rintro (h | rfl)
        · exact h
        · exact hw
    · rw [if_neg hw, if_pos (by simp [hw]), List.map_cons, ← h1]

theorem addNoDup_firsts (ws : List Word) : addNoDup [] ws = firsts ws := by
  rw [addNoDup_eq, newOnes_filter]
  simp [firsts]

theorem pathArray_directories (v : Var) (ps : List Word) :
    pathArray v = some ps ↔ Directories v ps := by
  unfold pathArray Directories
  cases v.value with
  | array ws =>
    simp only [Option.some.injEq, addNoDup_firsts]
    exact eq_comm
  | scalar w =>
    cases w with
    | none => simp
    | some w =>
      simp only [Option.some.injEq, addNoDup_firsts]
      constructor
      · intro h
        obtain ⟨h1, h2⟩ := splitColon_spec w
        exact ⟨splitColon w, splitColon_ne w, h2, by rw [← joinColon_eq]; exact h1, h.symm⟩
      · rintro ⟨parts, h1, h2, h3, h4⟩
        rw [← joinColon_eq] at h3
        rw [h4, ← h3, splitColon_join parts h1 h2]

theorem pathArray_none (v : Var) : pathArray v = none ↔ v.value = .scalar none := by
  unfold pathArray
  cases v.value with
  | array ws => simp
  | scalar w => cases w <;> simp

/-! ### The invariant -/

/-- The path array of the scope is the one of its variable. -/
def OkFor (m : Name) (s : Scope) : Prop :=
  isPathVar m = true → get s.paths m = (get s.vars m).bind pathArray

def AllOk (m : Name) (ss : List Scope) : Prop := ∀ s ∈ ss, OkFor m s

theorem resetPath_ok_self (n : Name) (s : Scope) : OkFor n (resetPath n s) := by
  intro hn
  rw [resetPath_vars]
  unfold resetPath
  rw [if_pos hn]
  cases h : (get s.vars n).bind pathArray with
  | none => simp [get_remove]
  | some p => simp [get_put]

theorem resetPath_ok_other (n m : Name) (s : Scope) (h : OkFor m s) : OkFor m (resetPath n s) := by
  by_cases hmn : m = n
  · subst hmn; exact resetPath_ok_self m s
  · intro hm
    rw [resetPath_vars, ← h hm]
    unfold resetPath
    split
    · split
      · simp [get_put, hmn]
      · simp [get_remove, hmn]
    · rfl

theorem allOk_map_self (n : Name) (ss : List Scope) : AllOk n (ss.map (resetPath n)) := by
  intro s hs
  rw [List.mem_map] at hs
  obtain ⟨t, _, rfl⟩ := hs
  exact resetPath_ok_self n t

theorem allOk_map (n m : Name) (ss : List Scope) (h : AllOk m ss) :
    AllOk m (ss.map (resetPath n)) := by
  intro s hs
  rw [List.mem_map] at hs
  obtain ⟨t, ht, rfl⟩ := hs
  exact resetPath_ok_other n m t (h t ht)

/-- A change of the variables named `n` in one scope does not concern other path variables. -/
theorem allOk_modify_other (m : Name) (f : Scope → Scope)
    (hf : ∀ s, get (f s).vars m = get s.vars m ∧ (f s).paths = s.paths) (ss : List Scope) :
    ∀ i, AllOk m ss → AllOk m (ss.modify i f) := by
  induction ss with
  | nil => intro i h; cases i <;> exact h
  | cons s ss ih =>
    intro i h
    have hh : OkFor m s := h s List.mem_cons_self
    have ht : AllOk m ss := fun t hm => h t (List.mem_cons_of_mem _ hm)
    cases i with
    | zero =>
      intro t hm
      simp only [List.modify_zero_cons, List.mem_cons] at hm
      rcases hm with rfl | hm
      · intro hp
        rw [(hf s).1, (hf s).2]
        exact hh hp
      · exact ht t hm
    | succ i =>
      intro t hm
      simp only [List.modify_succ_cons, List.mem_cons] at hm
      rcases hm with rfl | hm
      · exact hh
      · exact ih i ht t hm

theorem allOk_resetUpTo_other (m n : Name) (ss : List Scope) :
    ∀ i, AllOk m ss → AllOk m (resetUpTo n i ss) := by
  induction ss with
  | nil => intro i h; cases i <;> exact h
  | cons s ss ih =>
    intro i h
    have hh : OkFor m s := h s List.mem_cons_self
    have ht : AllOk m ss := fun t hm => h t (List.mem_cons_of_mem _ hm)
    cases i with
    | zero =>
      intro t hm
      simp only [resetUpTo, List.mem_cons] at hm
      rcases hm with rfl | hm
      · exact resetPath_ok_other n m s hh
      · exact ht t hm
    | succ i =>
      intro t hm
      simp only [resetUpTo, List.mem_cons] at hm
      rcases hm with rfl | hm
      · exact resetPath_ok_other n m s hh
      · exact ih i ht t hm

theorem allOk_resetUpTo_self (n : Name) (f : Scope → Scope) (ss : List Scope) :
    ∀ i, AllOk n ss → AllOk n (resetUpTo n i (ss.modify i f)) := by
  induction ss with
  | nil => intro i h; cases i <;> exact h
  | cons s ss ih =>
    intro i h
    have ht : AllOk n ss := fun t hm => h t (List.mem_cons_of_mem _ hm)
    cases i with
    | zero =>
      intro t hm
      simp only [List.modify_zero_cons, resetUpTo, List.mem_cons] at hm
      rcases hm with rfl | hm
      · exact resetPath_ok_self n _
      · exact ht t hm
    | succ i =>
      intro t hm
      simp only [List.modify_succ_cons, resetUpTo, List.mem_cons] at hm
      rcases hm with rfl | hm
      · exact resetPath_ok_self n s
      · exact ih i ht t hm

theorem store_allOk (seed : Word → Bool) (sh : Shell) (i : Nat) (n m : Name) (v : Var)
    (h : AllOk m sh.scopes) : AllOk m (store seed sh i n v).scopes := by
  rw [store_scopes]
  by_cases hmn : m = n
  · subst hmn
    exact allOk_resetUpTo_self m _ _ i h
  · refine allOk_resetUpTo_other m n _ i (allOk_modify_other m
      (fun s => { s with vars := put s.vars n (stored seed sh n v) }) (fun s => ⟨?_, rfl⟩) _ i h)
    simp [get_put, hmn]

theorem dropVar_allOk (sh : Shell) (i : Nat) (n m : Name) (v : Var) (h : AllOk m sh.scopes) :
    AllOk m (dropVar sh i n v).scopes := by
  rw [dropVar_scopes]
  by_cases hmn : m = n
  · subst hmn
    exact allOk_map_self m _
  · refine allOk_map n m _ (allOk_modify_other m
      (fun s => { s with vars := remove s.vars n }) (fun s => ⟨?_, rfl⟩) _ i h)
    simp [get_remove, hmn]

theorem Cleared.allOk {n : Name} {b : Nat} {sh sh' : Shell} (h : Cleared n b sh sh') (m : Name)
    (hm : AllOk m sh.scopes) : AllOk m sh'.scopes := by
  induction h with
  | refl => exact hm
  | drop sh sh' i v hi ht hv _ ih => exact ih (dropVar_allOk sh i n m v hm)

theorem putVar_allOk (sh : Shell) (i : Nat) (n m : Name) (v : Var) (h : AllOk m sh.scopes)
    (hmn : isPathVar m = true → m ≠ n) : AllOk m (putVar sh i n v).scopes := by
  cases hp : isPathVar m with
  | false => exact fun s _ hc => by rw [hp] at hc; cases hc
  | true =>
    refine allOk_modify_other m (fun s => { s with vars := put s.vars n v })
      (fun s => ⟨?_, rfl⟩) _ i h
    simp [get_put, hmn hp]

theorem isPathVar_iff (n : Name) : isPathVar n = true ↔
    n = "PATH".toList ∨ n = "CDPATH".toList ∨ n = "YASH_LOADPATH".toList := by
  unfold isPathVar
  simp only [Bool.or_eq_true, beq_iff_eq, or_assoc]

theorem Outcome.allOk {seed : Word → Bool} {sh sh' : Shell} {n : Name} {op : Op} {b : Bool}
    (h : Outcome seed sh n op sh' b) (hs : SaneC sh) (m : Name) (hm : AllOk m sh.scopes)
    (hop : ¬ EditsPathArray op) : AllOk m sh'.scopes := by
  cases h with
  | same => exact hm
  | refused val k exp f _ g => exact g.cleared.allOk m hm
  | assigned val k exp f e _ g =>
    rw [reexportIf_scopes]
    exact store_allOk _ _ _ _ _ _ (g.cleared.allOk m hm)
  | typeset val t f _ g =>
    rw [reexportIf_scopes]
    exact store_allOk _ _ _ _ _ _ (g.cleared.allOk m hm)
  | edited _ i v val u hip hl ho _ hrd =>
    rw [reexportIf_scopes]
    refine putVar_allOk sh i n m _ hm fun hp hmn => ?_
    subst hmn
    rw [isPathVar_iff] at hp
    cases op with
    | setElement k j w => cases hip; exact hop hp
    | arrayEdit k e => cases hip; exact hop hp
    | shift k e => cases hip; exact hop hp
    | read k w =>
      have := hs.getters i m v ((locate_column _ _ _ _).mp hl).1 (hrd k w rfl)
      rcases this with rfl | rfl
      · simp at hp
      · simp at hp
    | _ => exact hip.elim
  | removed _ i v hl => exact dropVar_allOk sh i n m v hm

theorem reexportAll_allOk (vars : Map Var) (sh : Shell) (m : Name) (h : AllOk m sh.scopes) :
    AllOk m (reexportAll vars sh).scopes := by
  induction vars generalizing sh with
  | nil => exact h
  | cons e vars ih =>
    rw [reexportAll]
    refine ih _ ?_
    rw [reexport_scopes]
    exact allOk_map _ _ _ h

theorem step_allOk (seed : Word → Bool) (sh sh' : Shell) (op : Op) (b : Bool) (hs : SaneC sh)
    (h : step seed sh op = some (sh', b)) (m : Name) (hm : AllOk m sh.scopes)
    (hop : ¬ EditsPathArray op) : AllOk m sh'.scopes := by
  cases hn : opName op with
  | some n => exact (step_outcome seed sh sh' op b n hs hn h).allOk hs m hm hop
  | none =>
    cases op with
    | enter t =>
      simp only [step, Option.some.injEq, Prod.mk.injEq] at h
      obtain ⟨rfl, _⟩ := h
      intro s hmem
      simp only [openScope, List.mem_cons] at hmem
      rcases hmem with rfl | hmem
      · intro _; rfl
      · exact hm s hmem
    | leave =>
      simp only [step, Option.map_eq_some_iff] at h
      obtain ⟨a, ha, he⟩ := h
      cases he
      unfold closeScope at ha
      cases hsc : sh.scopes with
      | nil => simp [hsc] at ha
      | cons s ss =>
        simp only [hsc] at ha
        split at ha
        · cases ha
        · cases ha
          refine reexportAll_allOk _ _ m fun t ht => hm t ?_
          rw [hsc]
          exact List.mem_cons_of_mem _ ht
    | allexport t =>
      simp only [step, Option.some.injEq, Prod.mk.injEq] at h
      obtain ⟨rfl, _⟩ := h
      exact hm
    | _ => cases hn

/-- The path array that is found. -/
theorem getPathArray_index (ss : List Scope) (n : Name) (hp : isPathVar n = true)
    (h : AllOk n ss) (ps : List Word) :
    getPathArray ss n = some ps ↔
      ∃ (i : Nat) (v : Var), (column n ss)[i]? = some (some v) ∧ pathArray v = some ps ∧
        ∀ (j : Nat) (u : Var), j < i → (column n ss)[j]? = some (some u) → pathArray u = none := by
  induction ss with
  | nil => simp [getPathArray, column]
  | cons s ss ih =>
    have hh := h s List.mem_cons_self hp
    have ih := ih (fun t ht => h t (List.mem_cons_of_mem _ ht))
    rw [getPathArray, hh]
    cases hb : (get s.vars n).bind pathArray with
    | some qs =>
      rw [Option.bind_eq_some_iff] at hb
      obtain ⟨v, hv, hq⟩ := hb
      constructor
      · intro he
        cases he
        exact ⟨0, v, by simp [column, hv], hq, fun j u hj => absurd hj (Nat.not_lt_zero j)⟩
      · rintro ⟨i, u, h1, h2, h3⟩
        cases i with
        | zero =>
          simp only [column, List.map_cons, List.getElem?_cons_zero, hv, Option.some.injEq] at h1
          subst h1
          rw [hq] at h2
          exact h2
        | succ i =>
          have := h3 0 v (Nat.succ_pos i) (by simp [column, hv])
          rw [hq] at this
          cases this
    | none =>
      have hb' : ∀ v, get s.vars n = some v → pathArray v = none := by
        intro v hv
        rw [hv] at hb
        exact hb
      simp only []
      rw [ih]
      constructor
      · rintro ⟨i, v, h1, h2, h3⟩
        refine ⟨i + 1, v, by simpa [column] using h1, h2, fun j u hj hu => ?_⟩
        cases j with
        | zero => exact hb' u (by simpa [column] using hu)
        | succ j => exact h3 j u (by omega) (by simpa [column] using hu)
      · rintro ⟨i, v, h1, h2, h3⟩
        cases i with
        | zero =>
          have := hb' v (by simpa [column] using h1)
          rw [this] at h2
          cases h2
        | succ i =>
          exact ⟨i, v, by simpa [column] using h1, h2, fun j u hj hu =>
            h3 (j + 1) u (by omega) (by simpa [column] using hu)⟩

theorem searchPath_index (sh : Shell) (n : Name) (ps : List Word) :
    SearchPath sh n ps ↔
      ∃ (i : Nat) (v : Var), (column n sh.scopes)[i]? = some (some v) ∧ pathArray v = some ps ∧
        ∀ (j : Nat) (u : Var), j < i → (column n sh.scopes)[j]? = some (some u) →
          pathArray u = none := by
  have hl := column_length n sh.scopes
  unfold SearchPath
  constructor
  · rintro ⟨d, v, h1, h2, h3⟩
    rw [varAt_column, index_level] at h1
    refine ⟨_, v, h1.2, (pathArray_directories v ps).mpr h2, fun j u hj hu => ?_⟩
    rw [pathArray_none]
    have h5 := (level_index _ _ _).mp hu
    refine h3 ((column n sh.scopes).length - 1 - j) u (by omega) ?_
    rw [varAt_column]
    exact h5.2
  · rintro ⟨i, v, h1, h2, h3⟩
    have h5 := (level_index _ _ _).mp h1
    refine ⟨(column n sh.scopes).length - 1 - i, v, ?_, (pathArray_directories v ps).mp h2,
      fun e u he hu => ?_⟩
    · rw [varAt_column]
      exact h5.2
    · rw [varAt_column, index_level] at hu
      rw [← pathArray_none]
      exact h3 _ u (by omega) hu.2

theorem pathsAgree_of_allOk (sh : Shell) (h : ∀ m, AllOk m sh.scopes) : PathsAgree sh := by
  intro n hn ps
  rw [searchPath_index]
  exact getPathArray_index sh.scopes n ((isPathVar_iff n).mpr hn) (h n) ps

end Yash.Variable
