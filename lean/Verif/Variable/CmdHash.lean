import Verif.Variable.Paths
/-! # The command hashtable and the directories of `PATH` -/
set_option autoImplicit false

namespace Yash.Variable

/-- The path array of `PATH` in each scope. -/
def pathColumn (ss : List Scope) : List (Option (List Word)) := ss.map fun s => get s.paths "PATH".toList

theorem getPathArray_congr (ss tt : List Scope) (h : pathColumn ss = pathColumn tt) :
    getPathArray ss "PATH".toList = getPathArray tt "PATH".toList := by
  induction ss generalizing tt with
  | nil =>
    cases tt with
    | nil => rfl
    | cons t tt => cases h
  | cons s ss ih =>
    cases tt with
    | nil => cases h
    | cons t tt =>
      simp only [pathColumn, List.map_cons, List.cons.injEq] at h
      rw [getPathArray, getPathArray, h.1, ih tt h.2]

/-- A scope has a path array for `PATH` only if it has the variable. -/
def Backed (ss : List Scope) : Prop :=
  ∀ s ∈ ss, get s.vars "PATH".toList = none → get s.paths "PATH".toList = none

/-- Either the remembered commands have been forgotten, or they and the directories are the same. -/
def Keeps (sh sh' : Shell) : Prop :=
  sh'.cmdhash = [] ∨ (sh'.cmdhash = sh.cmdhash ∧
    getPathArray sh'.scopes "PATH".toList = getPathArray sh.scopes "PATH".toList)

theorem Keeps.refl (sh : Shell) : Keeps sh sh := Or.inr ⟨rfl, rfl⟩

theorem Keeps.trans {a b c : Shell} (h1 : Keeps a b) (h2 : Keeps b c) : Keeps a c := by
  rcases h2 with h2 | h2
  · exact Or.inl h2
  · rcases h1 with h1 | h1
    · exact Or.inl (h2.1.trans h1)
    · exact Or.inr ⟨h2.1.trans h1.1, h2.2.trans h1.2⟩

theorem resetPath_path_other (n : Name) (s : Scope) (hn : n ≠ "PATH".toList) :
    get (resetPath n s).paths "PATH".toList = get s.paths "PATH".toList := by
  unfold resetPath
  split
  · split
    · simp only; rw [get_put, if_neg (fun h => hn h.symm)]
    · simp only; rw [get_remove, if_neg (fun h => hn h.symm)]
  · rfl

theorem resetPath_path_self (s : Scope) (h : get s.vars "PATH".toList = none) :
    get (resetPath "PATH".toList s).paths "PATH".toList = none := by
  unfold resetPath
  rw [if_pos (by decide), h]
  simp only [Option.bind_none]
  rw [get_remove, if_pos rfl]

theorem pathColumn_map_other (n : Name) (ss : List Scope) (hn : n ≠ "PATH".toList) :
    pathColumn (ss.map (resetPath n)) = pathColumn ss := by
  unfold pathColumn
  rw [List.map_map]
  apply List.map_congr_left
  intro s _
  exact resetPath_path_other n s hn

theorem pathColumn_resetUpTo_other (n : Name) (ss : List Scope) (hn : n ≠ "PATH".toList) :
    ∀ i, pathColumn (resetUpTo n i ss) = pathColumn ss := by
  induction ss with
  | nil => intro i; cases i <;> rfl
  | cons s ss ih =>
    intro i
    cases i with
    | zero =>
      simp only [resetUpTo, pathColumn, List.map_cons]
      rw [resetPath_path_other n s hn]
    | succ i =>
      have := ih i
      simp only [resetUpTo, pathColumn, List.map_cons] at this ⊢
      rw [resetPath_path_other n s hn, this]

theorem pathColumn_modify (ss : List Scope) (f : Scope → Scope) (hf : ∀ s, (f s).paths = s.paths) :
    ∀ i, pathColumn (ss.modify i f) = pathColumn ss := by
  induction ss with
  | nil => intro i; cases i <;> rfl
  | cons s ss ih =>
    intro i
    cases i with
    | zero => simp [List.modify_zero_cons, pathColumn, hf]
    | succ i =>
      have := ih i
      simp only [pathColumn] at this
      rw [List.modify_succ_cons, pathColumn, List.map_cons, this, pathColumn, List.map_cons]

theorem backed_map_self (ss : List Scope) : Backed (ss.map (resetPath "PATH".toList)) := by
  intro s hs
  rw [List.mem_map] at hs
  obtain ⟨t, _, rfl⟩ := hs
  rw [resetPath_vars]
  exact resetPath_path_self t

theorem backed_map_other (n : Name) (ss : List Scope) (hn : n ≠ "PATH".toList) (h : Backed ss) :
    Backed (ss.map (resetPath n)) := by
  intro s hs
  rw [List.mem_map] at hs
  obtain ⟨t, ht, rfl⟩ := hs
  rw [resetPath_vars, resetPath_path_other n t hn]
  exact h t ht

theorem backed_resetPath (n : Name) (s : Scope)
    (h : get s.vars "PATH".toList = none → get s.paths "PATH".toList = none) :
    get (resetPath n s).vars "PATH".toList = none → get (resetPath n s).paths "PATH".toList = none := by
  rw [resetPath_vars]
  by_cases hn : n = "PATH".toList
  · subst hn; exact resetPath_path_self s
  · rw [resetPath_path_other n s hn]; exact h

theorem backed_resetUpTo (n : Name) (ss : List Scope) (h : Backed ss) :
    ∀ i, Backed (resetUpTo n i ss) := by
  induction ss with
  | nil => intro i; cases i <;> exact h
  | cons s ss ih =>
    have ih := ih fun t ht => h t (List.mem_cons_of_mem _ ht)
    intro i t ht
    cases i with
    | zero =>
      simp only [resetUpTo, List.mem_cons] at ht
      rcases ht with rfl | ht
      · exact backed_resetPath n s (h s List.mem_cons_self)
      · exact h t (List.mem_cons_of_mem _ ht)
    | succ i =>
      simp only [resetUpTo, List.mem_cons] at ht
      rcases ht with rfl | ht
      · exact backed_resetPath n s (h s List.mem_cons_self)
      · exact ih i t ht

theorem backed_modify (ss : List Scope) (f : Scope → Scope)
    (hf : ∀ s, (get s.vars "PATH".toList = none → get s.paths "PATH".toList = none) →
      get (f s).vars "PATH".toList = none → get (f s).paths "PATH".toList = none) (h : Backed ss) :
    ∀ i, Backed (ss.modify i f) := by
  induction ss with
  | nil => intro i; cases i <;> exact h
  | cons s ss ih =>
    have ih := ih fun t ht => h t (List.mem_cons_of_mem _ ht)
    intro i t ht
    cases i with
    | zero =>
      simp only [List.modify_zero_cons, List.mem_cons] at ht
      rcases ht with rfl | ht
      · exact hf s (h s List.mem_cons_self)
      · exact h t (List.mem_cons_of_mem _ ht)
    | succ i =>
      simp only [List.modify_succ_cons, List.mem_cons] at ht
      rcases ht with rfl | ht
      · exact h t List.mem_cons_self
      · exact ih i t ht

theorem putVar_backed (sh : Shell) (i : Nat) (n : Name) (v : Var) (h : Backed sh.scopes) :
    Backed (putVar sh i n v).scopes := by
  refine backed_modify _ _ ?_ h i
  intro s hs
  simp only
  rw [get_put]
  split
  · intro h; cases h
  · exact hs

theorem putVar_keeps (sh : Shell) (i : Nat) (n : Name) (v : Var) : Keeps sh (putVar sh i n v) :=
  Or.inr ⟨rfl, getPathArray_congr _ _ (by apply pathColumn_modify; intro s; rfl)⟩

theorem reexport_cmdhash (sh : Shell) (n : Name) (v : Var) :
    (reexport sh n v).cmdhash = clearCmdhash n sh.cmdhash := by
  unfold reexport
  simp only []
  split <;> rfl

theorem clear_self (m : Map Word) : clearCmdhash "PATH".toList m = [] := rfl

theorem clear_other (n : Name) (m : Map Word) (h : n ≠ "PATH".toList) : clearCmdhash n m = m := by
  unfold clearCmdhash
  rw [if_neg]
  intro hb
  exact h (by simpa using hb)

theorem reexport_keeps (sh : Shell) (n : Name) (v : Var) : Keeps sh (reexport sh n v) := by
  by_cases hn : n = "PATH".toList
  · subst hn; exact Or.inl (by rw [reexport_cmdhash, clear_self])
  · refine Or.inr ⟨by rw [reexport_cmdhash, clear_other n _ hn], getPathArray_congr _ _ ?_⟩
    rw [reexport_scopes, pathColumn_map_other n _ hn]

theorem reexport_backed (sh : Shell) (n : Name) (v : Var) (h : Backed sh.scopes) :
    Backed (reexport sh n v).scopes := by
  rw [reexport_scopes]
  by_cases hn : n = "PATH".toList
  · subst hn; exact backed_map_self _
  · exact backed_map_other n _ hn h

theorem dropVar_keeps (sh : Shell) (i : Nat) (n : Name) (v : Var) : Keeps sh (dropVar sh i n v) := by
  refine Keeps.trans ?_ (reexport_keeps _ n v)
  exact Or.inr ⟨rfl, getPathArray_congr _ _ (by apply pathColumn_modify; intro s; rfl)⟩

theorem dropVar_backed (sh : Shell) (i : Nat) (n : Name) (v : Var) (h : Backed sh.scopes) :
    Backed (dropVar sh i n v).scopes := by
  by_cases hn : n = "PATH".toList
  · subst hn; unfold dropVar; rw [reexport_scopes]; exact backed_map_self _
  · refine reexport_backed _ n v (backed_modify _ _ ?_ h i)
    intro s hs
    simp only
    rw [get_remove, if_neg (fun h => hn h.symm)]
    exact hs

theorem Cleared.keeps {n : Name} {b : Nat} {sh sh' : Shell} (h : Cleared n b sh sh') : Keeps sh sh' := by
  induction h with
  | refl => exact .refl _
  | drop sh sh' i v _ _ _ _ ih => exact (dropVar_keeps sh i n v).trans ih

theorem Cleared.backed {n : Name} {b : Nat} {sh sh' : Shell} (h : Cleared n b sh sh')
    (hb : Backed sh.scopes) : Backed sh'.scopes := by
  induction h with
  | refl => exact hb
  | drop sh sh' i v _ _ _ _ ih => exact ih (dropVar_backed sh i n v hb)

theorem store_cmdhash (seed : Word → Bool) (sh : Shell) (i : Nat) (n : Name) (v : Var) :
    (store seed sh i n v).cmdhash = clearCmdhash n sh.cmdhash := by
  unfold store
  simp only []
  split
  · split <;> rfl
  · rfl

theorem store_keeps (seed : Word → Bool) (sh : Shell) (i : Nat) (n : Name) (v : Var) :
    Keeps sh (store seed sh i n v) := by
  by_cases hn : n = "PATH".toList
  · subst hn; exact Or.inl (by rw [store_cmdhash, clear_self])
  · refine Or.inr ⟨by rw [store_cmdhash, clear_other n _ hn], getPathArray_congr _ _ ?_⟩
    rw [store_scopes, pathColumn_resetUpTo_other n _ hn]
    apply pathColumn_modify
    intro s
    rfl

theorem store_backed (seed : Word → Bool) (sh : Shell) (i : Nat) (n : Name) (v : Var)
    (h : Backed sh.scopes) : Backed (store seed sh i n v).scopes := by
  rw [store_scopes]
  exact backed_resetUpTo n _ (putVar_backed sh i n _ h) i

theorem reexportIf_keeps (b : Bool) (sh : Shell) (n : Name) : Keeps sh (reexportIf b sh n) := by
  unfold reexportIf; split <;> exact Or.inr ⟨rfl, rfl⟩

theorem reexportIf_backed (b : Bool) (sh : Shell) (n : Name) (h : Backed sh.scopes) :
    Backed (reexportIf b sh n).scopes := by
  rw [reexportIf_scopes]; exact h

theorem Outcome.cmdhash {seed : Word → Bool} {sh sh' : Shell} {n : Name} {op : Op} {b : Bool}
    (h : Outcome seed sh n op sh' b) (hb : Backed sh.scopes) : Keeps sh sh' ∧ Backed sh'.scopes := by
  cases h with
  | same => exact ⟨.refl _, hb⟩
  | refused val k exp f _ g => exact ⟨g.cleared.keeps, g.cleared.backed hb⟩
  | assigned val k exp f e _ g =>
    exact ⟨(g.cleared.keeps.trans (store_keeps ..)).trans (reexportIf_keeps ..),
      reexportIf_backed _ _ _ (store_backed _ _ _ _ _ (g.cleared.backed hb))⟩
  | typeset val t f _ g =>
    exact ⟨(g.cleared.keeps.trans (store_keeps ..)).trans (reexportIf_keeps ..),
      reexportIf_backed _ _ _ (store_backed _ _ _ _ _ (g.cleared.backed hb))⟩
  | edited _ i v val u =>
    exact ⟨(putVar_keeps ..).trans (reexportIf_keeps ..),
      reexportIf_backed _ _ _ (putVar_backed _ _ _ _ hb)⟩
  | removed _ i v => exact ⟨dropVar_keeps .., dropVar_backed _ _ _ _ hb⟩

theorem reexportAll_keeps (m : Map Var) (sh : Shell) : Keeps sh (reexportAll m sh) := by
  induction m generalizing sh with
  | nil => exact .refl _
  | cons e m ih => exact (reexport_keeps sh e.1 e.2).trans (ih _)

theorem reexportAll_backed (m : Map Var) (sh : Shell) (h : Backed sh.scopes) :
    Backed (reexportAll m sh).scopes := by
  induction m generalizing sh with
  | nil => exact h
  | cons e m ih => exact ih _ (reexport_backed sh e.1 e.2 h)

theorem reexportAll_clears (m : Map Var) (sh : Shell)
    (h : sh.cmdhash = [] ∨ get m "PATH".toList ≠ none) : (reexportAll m sh).cmdhash = [] := by
  induction m generalizing sh with
  | nil =>
    rcases h with h | h
    · exact h
    · exact absurd rfl h
  | cons e m ih =>
    refine ih _ ?_
    rw [reexport_cmdhash]
    by_cases he : e.1 = "PATH".toList
    · left; rw [he, clear_self]
    · rw [clear_other _ _ he]
      rw [get, if_neg he] at h
      exact h

theorem closeScope_cmdhash (sh sh' : Shell) (h : closeScope sh = some sh') (hb : Backed sh.scopes) :
    Keeps sh sh' ∧ Backed sh'.scopes := by
  unfold closeScope at h
  cases hs : sh.scopes with
  | nil => simp [hs] at h
  | cons s ss =>
    simp only [hs] at h
    split at h
    · cases h
    · simp only [Option.some.injEq] at h
      subst h
      have hss : Backed ss := fun t ht => hb t (by rw [hs]; exact List.mem_cons_of_mem _ ht)
      refine ⟨?_, reexportAll_backed _ _ hss⟩
      cases hg : get s.vars "PATH".toList with
      | some v => exact Or.inl (reexportAll_clears _ _ (Or.inr (by rw [hg]; simp)))
      | none =>
        refine Keeps.trans (b := { sh with scopes := ss }) ?_ (reexportAll_keeps _ _)
        refine Or.inr ⟨rfl, ?_⟩
        have := hb s (by rw [hs]; exact List.mem_cons_self) hg
        rw [hs, getPathArray, this]

theorem step_cmdhash (seed : Word → Bool) (sh sh' : Shell) (op : Op) (b : Bool) (hs : SaneC sh)
    (hb : Backed sh.scopes) (h : step seed sh op = some (sh', b)) : Keeps sh sh' ∧ Backed sh'.scopes := by
  cases hn : opName op with
  | some n => exact (step_outcome seed sh sh' op b n hs hn h).cmdhash hb
  | none =>
    cases op with
    | enter t =>
      simp only [step, Option.some.injEq, Prod.mk.injEq] at h
      obtain ⟨rfl, _⟩ := h
      refine ⟨Or.inr ⟨rfl, rfl⟩, ?_⟩
      intro s hs
      simp only [openScope, List.mem_cons] at hs
      rcases hs with rfl | hs
      · intro _; rfl
      · exact hb s hs
    | leave =>
      simp only [step, Option.map_eq_some_iff] at h
      obtain ⟨sh1, h1, h2⟩ := h
      cases h2
      exact closeScope_cmdhash sh _ h1 hb
    | allexport t =>
      simp only [step, Option.some.injEq, Prod.mk.injEq] at h
      obtain ⟨rfl, _⟩ := h
      exact ⟨Or.inr ⟨rfl, rfl⟩, hb⟩
    | _ => cases hn

theorem initEnvironment_backed (env : Map Word) : Backed (initEnvironment env).scopes := by
  intro s hs
  simp only [initEnvironment, List.mem_singleton] at hs
  subst hs
  rw [resetPath_vars]
  exact resetPath_path_self _

end Yash.Variable
