import Verif.Variable.Environ
/-! # Which scopes an operation concerns -/
set_option autoImplicit false

namespace Yash.Variable

open Spec

theorem varAt_index (sh : Shell) (d : Nat) (n : Name) (hd : d < sh.scopes.length) :
    (column n sh.scopes)[sh.scopes.length - 1 - d]? = some (varAt sh d n) := by
  have hl := column_length n sh.scopes
  cases hv : varAt sh d n with
  | some v =>
    rw [varAt_column, index_level, hl] at hv
    exact hv.2
  | none =>
    rw [varAt_none] at hv
    cases ho : (column n sh.scopes)[sh.scopes.length - 1 - d]? with
    | none =>
      rw [List.getElem?_eq_none_iff] at ho
      omega
    | some o =>
      cases o with
      | none => rfl
      | some v =>
        exfalso
        refine hv v ?_
        rw [index_level, hl]
        exact ⟨hd, ho⟩

theorem varAt_beyond (sh : Shell) (d : Nat) (n : Name) (hd : sh.scopes.length ≤ d) :
    varAt sh d n = none := by
  rw [varAt_none]
  intro o ho
  rw [index_level, column_length] at ho
  omega

theorem index_varAt (sh : Shell) (i : Nat) (n : Name) (hi : i < sh.scopes.length) :
    (column n sh.scopes)[i]? = some (varAt sh (sh.scopes.length - 1 - i) n) := by
  have := varAt_index sh (sh.scopes.length - 1 - i) n (by omega)
  rw [show sh.scopes.length - 1 - (sh.scopes.length - 1 - i) = i from by omega] at this
  exact this

theorem plainAt_index (sh : Shell) (d : Nat) :
    PlainAt sh d ↔ d < sh.scopes.length ∧
      (temps sh.scopes)[sh.scopes.length - 1 - d]? = some false := by
  rw [plainAt_temps, index_level, temps_length]

theorem tempAt_index (sh : Shell) (d : Nat) :
    TempAt sh d ↔ d < sh.scopes.length ∧
      (temps sh.scopes)[sh.scopes.length - 1 - d]? = some true := by
  rw [tempAt_temps, index_level, temps_length]

/-- The same columns mean the same variables. -/
theorem varAt_congr (sh sh' : Shell) (n : Name) (h : column n sh'.scopes = column n sh.scopes)
    (d : Nat) : varAt sh' d n = varAt sh d n := by
  apply Option.ext
  intro v
  rw [varAt_column, varAt_column, h]

theorem varAt_congr_at (sh sh' : Shell) (n : Name) (d : Nat)
    (hl : sh'.scopes.length = sh.scopes.length)
    (h : d < sh.scopes.length → (column n sh'.scopes)[sh.scopes.length - 1 - d]? =
      (column n sh.scopes)[sh.scopes.length - 1 - d]?) :
    varAt sh' d n = varAt sh d n := by
  by_cases hd : d < sh.scopes.length
  · have h1 := varAt_index sh d n hd
    have h2 := varAt_index sh' d n (by omega)
    rw [hl, h hd, h1] at h2
    simpa using h2.symm
  · rw [varAt_beyond sh d n (by omega), varAt_beyond sh' d n (by omega)]

/-- A removal or a change at an index. -/
theorem Cleared.column_above {n : Name} {b : Nat} {sh sh' : Shell} (h : Cleared n b sh sh') (j : Nat)
    (hj : b < j) : (Variable.column n sh'.scopes)[j]? = (Variable.column n sh.scopes)[j]? := by
  rcases h.column j with h | ⟨_, h, _⟩
  · exact h
  · omega

/-- The largest index of a scope that an operation on `n` may change. -/
def Touches (n : Name) (t : Nat) (sh sh' : Shell) : Prop :=
  ∀ j, t < j → (column n sh'.scopes)[j]? = (column n sh.scopes)[j]?

theorem global_idx (sh : Shell) (n : Name) (f : Found) (g : GlobalFound n sh f) (e : Nat)
    (hp : PlainAt sh e) (hv : varAt sh e n ≠ none) : f.idx + e < sh.scopes.length := by
  rw [plainAt_index] at hp
  obtain ⟨he, ht⟩ := hp
  have h1 := varAt_index sh e n he
  have h2 : (column n f.sh.scopes)[sh.scopes.length - 1 - e]? = some (varAt sh e n) := by
    rcases g.cleared.column (sh.scopes.length - 1 - e) with h | ⟨_, _, h⟩
    · rw [h, h1]
    · rw [ht] at h; cases h
  by_cases hlt : sh.scopes.length - 1 - e < f.idx
  · have := g.below _ hlt
    rw [h2] at this
    exact absurd (by simpa using this) hv
  · omega

theorem local_idx (sh : Shell) (n : Name) (f : Found) (g : LocalFound n sh f) (e : Nat)
    (hp : PlainAt sh e) : f.idx + e < sh.scopes.length := by
  rw [plainAt_index] at hp
  obtain ⟨he, ht⟩ := hp
  by_cases hlt : sh.scopes.length - 1 - e < f.idx
  · have := (g.below _ hlt).2
    rw [g.cleared.temps, ht] at this
    cases this
  · omega

theorem locate_idx (sh : Shell) (n : Name) (i : Nat) (v : Var)
    (h : locate sh.scopes n = some (i, v)) (e : Nat) (hv : varAt sh e n ≠ none) :
    i + e < sh.scopes.length := by
  rw [locate_column] at h
  have he : e < sh.scopes.length := by
    apply Decidable.byContradiction
    intro hc
    exact hv (varAt_beyond sh e n (by omega))
  have h1 := varAt_index sh e n he
  by_cases hlt : sh.scopes.length - 1 - e < i
  · have := h.2 _ hlt
    rw [h1] at this
    exact absurd (by simpa using this) hv
  · omega

theorem touches_store (seed : Word → Bool) (n : Name) (sh : Shell) (f : Found) (e : Bool) (v : Var)
    (h : Cleared n f.idx sh f.sh) :
    Touches n f.idx sh (reexportIf e (store seed f.sh f.idx n v) n) := by
  intro j hj
  rw [reexportIf_scopes, store_column, List.getElem?_set_ne (by omega), h.column_above j hj]

/-- A confined operation does not change outer variables. -/
theorem Outcome.confined {seed : Word → Bool} {sh sh' : Shell} {n : Name} {op : Op} {b : Bool}
    (h : Outcome seed sh n op sh' b) (hs : SaneC sh) (base : Nat) (hc : Confined base n sh op)
    (hbl : base < sh.scopes.length) (hn : opName op = some n) :
    Touches n (sh.scopes.length - 1 - base) sh sh' := by
  have mono : ∀ t sh', Touches n t sh sh' → t + base < sh.scopes.length →
      Touches n (sh.scopes.length - 1 - base) sh sh' := by
    intro t sh' ht hb j hj
    exact ht j (by omega)
  cases h with
  | same => intro j _; rfl
  | refused val k exp f hf g hr =>
    cases k with
    | global =>
      obtain ⟨e, h1, h2, h3⟩ := hc rfl
      have := global_idx sh n f (newGlobal_spec n sh f hs.pos hf) e h2 h3
      exact mono f.idx _ (fun j hj => g.cleared.column_above j hj) (by omega)
    | «local» =>
      obtain ⟨e, h1, h2⟩ := hc rfl
      have := local_idx sh n f (newLocal_spec n sh f hf) e h2
      exact mono f.idx _ (fun j hj => g.cleared.column_above j hj) (by omega)
    | temp =>
      rw [(newTemporary_spec n sh f hf).1]
      intro j _
      rfl
  | assigned val k exp f e hf g hr =>
    cases k with
    | global =>
      obtain ⟨e, h1, h2, h3⟩ := hc rfl
      have := global_idx sh n f (newGlobal_spec n sh f hs.pos hf) e h2 h3
      exact mono f.idx _ (touches_store _ _ _ _ _ _ g.cleared) (by omega)
    | «local» =>
      obtain ⟨e, h1, h2⟩ := hc rfl
      have := local_idx sh n f (newLocal_spec n sh f hf) e h2
      exact mono f.idx _ (touches_store _ _ _ _ _ _ g.cleared) (by omega)
    | temp =>
      obtain ⟨_, h2⟩ := newTemporary_spec n sh f hf
      rcases h2 with ⟨_, h2⟩ | ⟨h2, _⟩
      · rw [hr] at h2; cases h2
      · exact mono f.idx _ (touches_store _ _ _ _ _ _ g.cleared) (by omega)
  | typeset val t f hf g gt =>
    obtain ⟨e, h1, h2, h3⟩ := hc rfl
    refine mono f.idx _ (touches_store _ _ _ _ _ _ g.cleared) ?_
    cases hg : t.global with
    | true =>
      rw [hg] at hf
      have := global_idx sh n f (newGlobal_spec n sh f hs.pos hf) e h2 (h3 hg)
      omega
    | false =>
      rw [hg] at hf
      have := local_idx sh n f (newLocal_spec n sh f hf) e h2
      omega
  | edited _ i v val u hip hl =>
    have hex : ∃ e, base ≤ e ∧ varAt sh e n ≠ none := by
      cases op with
      | setElement m j w => cases hn; exact hc rfl
      | arrayEdit m e => cases hn; exact hc rfl
      | shift m e => cases hn; exact hc rfl
      | read m w => cases hn; exact hc rfl
      | _ => exact hip.elim
    obtain ⟨e, h1, h2⟩ := hex
    have := locate_idx sh n i v hl e h2
    refine mono i _ ?_ (by omega)
    intro j hj
    rw [reexportIf_scopes, putVar_column, List.getElem?_set_ne (by omega)]
  | removed _ i v hl hd he =>
    subst he
    obtain ⟨e, h1, h2⟩ := hc rfl
    have := locate_idx sh n i v hl e h2
    refine mono i _ ?_ (by omega)
    intro j hj
    rw [dropVar_column, List.getElem?_set_ne (by omega)]

end Yash.Variable
