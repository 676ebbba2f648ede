import Verif.Variable.Paths
import Verif.Variable.ArrayModel
/-! # The complete effect of the operations, and the absence of failed assertions -/
set_option autoImplicit false

namespace Yash.Variable

open Spec

theorem locate_visible (sh : Shell) (n : Name) (i : Nat) (v : Var)
    (h : locate sh.scopes n = some (i, v)) :
    i < sh.scopes.length ∧ Visible sh n (sh.scopes.length - 1 - i) v := by
  have hl := column_length n sh.scopes
  rw [locate_column] at h
  have h1 := (level_index _ _ _).mp h.1
  rw [hl] at h1
  refine ⟨h1.1, ?_, fun e he => ?_⟩
  · rw [varAt_column]; exact h1.2
  · by_cases hel : e < sh.scopes.length
    · have h2 := varAt_index sh e n hel
      rw [h.2 _ (by omega)] at h2
      simpa using h2.symm
    · exact varAt_beyond sh e n (by omega)

theorem visible_locate (sh : Shell) (n : Name) (d : Nat) (v : Var) (h : Visible sh n d v) :
    d < sh.scopes.length ∧ locate sh.scopes n = some (sh.scopes.length - 1 - d, v) := by
  have hl := column_length n sh.scopes
  have h1 := h.1
  rw [varAt_column, index_level, hl] at h1
  refine ⟨h1.1, ?_⟩
  rw [locate_column]
  refine ⟨h1.2, fun j hj => ?_⟩
  rw [index_varAt sh j n (by omega), h.2 _ (by omega)]

/-! ### Targets -/

theorem Cleared.plain {n : Name} {b : Nat} {sh sh' : Shell} (h : Cleared n b sh sh') (d : Nat)
    (hp : PlainAt sh d) : varAt sh' d n = varAt sh d n := by
  refine varAt_congr_at _ _ _ _ h.length fun hd => ?_
  rcases h.column (sh.scopes.length - 1 - d) with hc | ⟨_, _, hc⟩
  · exact hc
  · rw [plainAt_index] at hp
    rw [hp.2] at hc
    cases hc

theorem Cleared.plainAt {n : Name} {b : Nat} {sh sh' : Shell} (h : Cleared n b sh sh') (d : Nat) :
    PlainAt sh' d ↔ PlainAt sh d := by
  rw [plainAt_temps, plainAt_temps, h.temps]

theorem not_temp_plain (sh : Shell) (d : Nat) (hd : d < sh.scopes.length) :
    TempAt sh d ∨ PlainAt sh d := by
  have : ∃ s, sh.scopes.reverse[d]? = some s := by
    rw [← Option.isSome_iff_exists]
    simpa using hd
  obtain ⟨s, hs⟩ := this
  cases ht : s.temp with
  | true => exact Or.inl ⟨s, hs, ht⟩
  | false => exact Or.inr ⟨s, hs, ht⟩

theorem temp_not_plain (sh : Shell) (d : Nat) (h : TempAt sh d) : ¬ PlainAt sh d := by
  rintro ⟨s, hs, ht⟩
  obtain ⟨t, hs', ht'⟩ := h
  rw [hs] at hs'
  cases hs'
  rw [ht] at ht'
  cases ht'

/-- What the search for a place for the variable does, in terms of levels. -/
structure Place (n : Name) (sh : Shell) (f : Found) (d : Nat) : Prop where
  idx : f.idx + d + 1 = sh.scopes.length
  cleared : Cleared n f.idx sh f.sh
  above : ∀ e, d < e → varAt f.sh e n = none
  var : f.var = (varAt sh d n).getD .fresh

theorem global_place (n : Name) (sh : Shell) (f : Found) (hs : SaneC sh)
    (h : newGlobal sh n = some f) : ∃ d, Target sh n .global d ∧ Place n sh f d := by
  have g := newGlobal_spec n sh f hs.pos h
  have hs' := hs.cleared g.cleared
  have hlen := g.cleared.length
  have hidx : f.idx < sh.scopes.length := by
    rcases g.here with h | h
    · have := h.1
      rw [List.getElem?_eq_some_iff] at this
      have := this.1
      rw [column_length] at this
      omega
    · omega
  have habove : ∀ e, sh.scopes.length - 1 - f.idx < e → varAt f.sh e n = none := by
    intro e he
    by_cases hel : e < f.sh.scopes.length
    · have h1 := varAt_index f.sh e n hel
      rw [g.below _ (by omega)] at h1
      simpa using h1.symm
    · exact varAt_beyond f.sh e n (by omega)
  have hplain : PlainAt sh (sh.scopes.length - 1 - f.idx) := by
    rw [plainAt_index, show sh.scopes.length - 1 - (sh.scopes.length - 1 - f.idx) = f.idx from by omega]
    refine ⟨by omega, ?_⟩
    rw [← g.cleared.temps]
    rcases g.here with h | h
    · exact h.2
    · exact hs'.last _ h.2.2
  have hsame := g.cleared.plain _ hplain
  have hcol := index_varAt f.sh f.idx n (by omega)
  rw [hlen, hsame] at hcol
  refine ⟨sh.scopes.length - 1 - f.idx, ?_, by omega, g.cleared, habove, ?_⟩
  · have hother : ∀ e, sh.scopes.length - 1 - f.idx < e → PlainAt sh e → varAt sh e n = none := by
      intro e he hp
      rw [← g.cleared.plain e hp]
      exact habove e he
    rcases g.here with ⟨h1, _⟩ | ⟨h1, _, h3⟩
    · left
      refine ⟨hplain, ?_, hother⟩
      rw [h1] at hcol
      intro hc
      rw [hc] at hcol
      cases hcol
    · right
      refine ⟨by omega, fun e hp => ?_⟩
      by_cases he : e = 0
      · subst he
        rw [h1, show sh.scopes.length - 1 - f.idx = 0 from by omega] at hcol
        simpa using hcol.symm
      · exact hother e (by omega) hp
  · rcases g.here with ⟨h1, _⟩ | ⟨h1, h2, _⟩
    · rw [h1] at hcol
      simp only [Option.some.injEq] at hcol
      rw [← hcol]
      rfl
    · rw [h1] at hcol
      simp only [Option.some.injEq] at hcol
      rw [← hcol, h2]
      rfl

theorem local_place (n : Name) (sh : Shell) (f : Found)
    (h : newLocal sh n = some f) : ∃ d, Target sh n .local d ∧ Place n sh f d := by
  have g := newLocal_spec n sh f h
  have hlen := g.cleared.length
  have hidx : f.idx < sh.scopes.length := by
    have := g.nontemp
    rw [List.getElem?_eq_some_iff] at this
    have := this.1
    rw [temps_length] at this
    omega
  have hplain : PlainAt sh (sh.scopes.length - 1 - f.idx) := by
    rw [plainAt_index, show sh.scopes.length - 1 - (sh.scopes.length - 1 - f.idx) = f.idx from by omega]
    refine ⟨by omega, ?_⟩
    rw [← g.cleared.temps]
    exact g.nontemp
  have hsame := g.cleared.plain _ hplain
  have hcol := index_varAt f.sh f.idx n (by omega)
  rw [hlen, hsame] at hcol
  refine ⟨sh.scopes.length - 1 - f.idx, ⟨hplain, fun e he hp => ?_⟩, by omega, g.cleared,
    fun e he => ?_, ?_⟩
  · rw [plainAt_index] at hp
    have h1 := (g.below _ (show sh.scopes.length - 1 - e < f.idx from by omega)).2
    rw [g.cleared.temps, hp.2] at h1
    cases h1
  · by_cases hel : e < f.sh.scopes.length
    · have h1 := varAt_index f.sh e n hel
      rw [(g.below _ (by omega)).1] at h1
      simpa using h1.symm
    · exact varAt_beyond f.sh e n (by omega)
  · rcases g.here with h1 | ⟨h1, h2⟩
    · rw [h1] at hcol
      simp only [Option.some.injEq] at hcol
      rw [← hcol]
      rfl
    · rw [h1] at hcol
      simp only [Option.some.injEq] at hcol
      rw [← hcol, h2]
      rfl

theorem temp_place (n : Name) (sh : Shell) (f : Found) (hr : f.var.readonly = false)
    (h : newTemporary sh n = some f) : ∃ d, Target sh n .temp d ∧ Place n sh f d := by
  obtain ⟨h1, h2⟩ := newTemporary_spec n sh f h
  rcases h2 with ⟨_, h2⟩ | ⟨h2, h3, _, h4⟩
  · rw [hr] at h2; cases h2
  · have hpos : 0 < sh.scopes.length := by
      rw [List.getElem?_eq_some_iff] at h3
      have := h3.1
      rw [temps_length] at this
      omega
    have hcol := index_varAt sh 0 n hpos
    refine ⟨sh.scopes.length - 1, ⟨by omega, ?_⟩, by omega, ?_, fun e he => ?_, ?_⟩
    · rw [tempAt_index, show sh.scopes.length - 1 - (sh.scopes.length - 1) = 0 from by omega]
      exact ⟨by omega, h3⟩
    · rw [h1]; exact .refl _
    · rw [h1]; exact varAt_beyond sh e n (by omega)
    · rw [Nat.sub_zero] at hcol
      rcases h4 with h4 | ⟨h4, h5⟩
      · rw [h4] at hcol
        simp only [Option.some.injEq] at hcol
        rw [← hcol]
        rfl
      · rw [h4] at hcol
        simp only [Option.some.injEq] at hcol
        rw [← hcol, h5]
        rfl

/-- The effect of storing a variable at its place. -/
theorem place_store (seed : Word → Bool) (n : Name) (sh : Shell) (f : Found) (d : Nat) (v : Var)
    (b : Bool) (p : Place n sh f d) :
    ChangesOnly n d sh (reexportIf b (store seed f.sh f.idx n v) n) ∧
      varAt (reexportIf b (store seed f.sh f.idx n v) n) d n = some (stored seed f.sh n v) ∧
      ∀ e, d < e → varAt (reexportIf b (store seed f.sh f.idx n v) n) e n = none := by
  have hidx := p.idx
  have hlen := p.cleared.length
  have htemps : temps (reexportIf b (store seed f.sh f.idx n v) n).scopes = temps sh.scopes := by
    rw [reexportIf_scopes, store_temps, p.cleared.temps]
  have hl' : (reexportIf b (store seed f.sh f.idx n v) n).scopes.length = sh.scopes.length := by
    rw [← temps_length, htemps, temps_length]
  have hcol : column n (reexportIf b (store seed f.sh f.idx n v) n).scopes =
      (column n f.sh.scopes).set f.idx (some (stored seed f.sh n v)) := by
    rw [reexportIf_scopes, store_column]
  refine ⟨⟨hl', fun e => ?_, fun m e hm => ?_, fun e he => ?_⟩, ?_, fun e he => ?_⟩
  · rw [tempAt_temps, tempAt_temps, htemps]
  · refine varAt_congr _ _ _ ?_ e
    rw [reexportIf_scopes, store_column_other _ _ _ _ _ _ hm, p.cleared.column_other m hm]
  · refine varAt_congr_at _ _ _ _ hl' fun hel => ?_
    rw [hcol, List.getElem?_set_ne (by omega), p.cleared.column_above _ (by omega)]
  · have h1 := varAt_index (reexportIf b (store seed f.sh f.idx n v) n) d n (by omega)
    rw [hcol, hl', show sh.scopes.length - 1 - d = f.idx from by omega,
      List.getElem?_set_self (by rw [column_length]; omega)] at h1
    simpa using h1.symm
  · by_cases hel : e < sh.scopes.length
    · rw [varAt_congr_at f.sh _ n e (hl'.trans hlen.symm) (fun _ => by
        rw [hcol, List.getElem?_set_ne (by omega)])]
      exact p.above e he
    · exact varAt_beyond _ _ _ (by omega)

theorem changesOnly_cleared (n : Name) (d : Nat) (sh : Shell) (f : Found) (p : Place n sh f d) :
    ChangesOnly n d sh f.sh := by
  have hidx := p.idx
  refine ⟨p.cleared.length, fun e => ?_, fun m e hm => ?_, fun e he => ?_⟩
  · rw [tempAt_temps, tempAt_temps, p.cleared.temps]
  · exact varAt_congr _ _ _ (p.cleared.column_other m hm) e
  · refine varAt_congr_at _ _ _ _ p.cleared.length fun hel => ?_
    rw [p.cleared.column_above _ (by omega)]

/-! ### No assertion fails -/

theorem newGlobalLoop_total (n : Name) (k i : Nat) (sh : Shell) (hs : SaneC sh)
    (hik : i + k = sh.scopes.length) : newGlobalLoop n k i sh ≠ none := by
  induction k generalizing i sh with
  | zero => rw [newGlobalLoop]; simp
  | succ k ih =>
    rw [newGlobalLoop]
    cases hsc : sh.scopes[i]? with
    | none =>
      rw [List.getElem?_eq_none_iff] at hsc
      omega
    | some s =>
      simp only []
      obtain ⟨hc, ht⟩ := scope_column _ _ _ n hsc
      cases hg : get s.vars n with
      | none => exact ih (i + 1) sh hs (by omega)
      | some v =>
        simp only []
        cases hst : s.temp with
        | false => simp
        | true =>
          rw [hg] at hc
          rw [hst] at ht
          simp only [if_true, hs.temporary i n v hc ht, Bool.false_eq_true, if_false]
          refine ih (i + 1) _ (hs.dropVar i n v) ?_
          rw [← temps_length, dropVar_temps, temps_length]
          omega

theorem newLocalLoop_total (n : Name) (k i : Nat) (sh : Shell) (hs : SaneC sh)
    (hik : i + k = sh.scopes.length) (ht : ∀ j, j < i → (temps sh.scopes)[j]? = some true) :
    newLocalLoop n k i sh ≠ none := by
  induction k generalizing i sh with
  | zero =>
    have h1 := hs.pos
    have h2 := hs.last (i - 1) (by omega)
    rw [ht (i - 1) (by omega)] at h2
    cases h2
  | succ k ih =>
    rw [newLocalLoop]
    cases hsc : sh.scopes[i]? with
    | none =>
      rw [List.getElem?_eq_none_iff] at hsc
      omega
    | some s =>
      simp only []
      obtain ⟨hc, htt⟩ := scope_column _ _ _ n hsc
      cases hst : s.temp with
      | false => cases get s.vars n <;> simp
      | true =>
        rw [hst] at htt
        have ht' : ∀ j, j < i + 1 → (temps sh.scopes)[j]? = some true := by
          intro j hj
          by_cases hji : j = i
          · rw [hji]; exact htt
          · exact ht j (by omega)
        simp only [if_true]
        cases hg : get s.vars n with
        | none => exact ih (i + 1) sh hs (by omega) ht'
        | some v =>
          refine ih (i + 1) _ (hs.dropVar i n v) ?_ ?_
          · rw [← temps_length, dropVar_temps, temps_length]
            omega
          · rw [dropVar_temps]
            exact ht'

theorem newGlobal_total (n : Name) (sh : Shell) (hs : SaneC sh) : newGlobal sh n ≠ none :=
  newGlobalLoop_total n _ 0 sh hs (by omega)

theorem newLocal_total (n : Name) (sh : Shell) (hs : SaneC sh) : newLocal sh n ≠ none :=
  newLocalLoop_total n _ 0 sh hs (by omega) (fun j hj => absurd hj (Nat.not_lt_zero j))

/-! ### The initial state -/

theorem foldl_put_get (env : Map Word) (m : Map Var) (n : Name)
    (hnd : (env.map (·.1)).Nodup) :
    get (env.foldl (fun m e => put m e.1 ⟨.scalar (some e.2), true, false, false, .none⟩) m) n =
      match get env n with
      | some w => some ⟨.scalar (some w), true, false, false, .none⟩
      | none => get m n := by
  induction env generalizing m with
  | nil => rfl
  | cons e env ih =>
    simp only [List.map_cons, List.nodup_cons] at hnd
    rw [List.foldl_cons, ih _ hnd.2, get]
    by_cases he : e.1 = n
    · rw [if_pos he]
      have hnone : get env n = none := by
        cases hg : get env n with
        | none => rfl
        | some w =>
          exfalso
          apply hnd.1
          rw [List.mem_map]
          exact ⟨(n, w), get_mem _ _ _ hg, he.symm⟩
      rw [hnone]
      simp [get_put, he]
    · rw [if_neg he]
      cases get env n with
      | some w => rfl
      | none =>
        simp only []
        rw [get_put, if_neg (fun h => he h.symm)]

theorem initEnvironment_vars (env : Map Word) (n : Name) (hnd : (env.map (·.1)).Nodup) :
    ∃ s, (initEnvironment env).scopes = [s] ∧ s.temp = false ∧
      get s.vars n = (get env n).map fun w => ⟨.scalar (some w), true, false, false, .none⟩ := by
  refine ⟨_, rfl, ?_, ?_⟩
  · rw [resetPath_temp, resetPath_temp, resetPath_temp]
  · rw [resetPath_vars, resetPath_vars, resetPath_vars]
    simp only []
    rw [foldl_put_get env [] n hnd]
    cases get env n <;> rfl

theorem initEnvironment_allOk (env : Map Word) (m : Name) : AllOk m (initEnvironment env).scopes := by
  intro s hs hm
  simp only [initEnvironment, List.mem_singleton] at hs
  subst hs
  rw [isPathVar_iff] at hm
  rcases hm with rfl | rfl | rfl
  · exact resetPath_ok_self _ _ rfl
  · exact resetPath_ok_other _ _ _ (resetPath_ok_self _ _) rfl
  · exact resetPath_ok_other _ _ _ (resetPath_ok_other _ _ _ (resetPath_ok_self _ _)) rfl

theorem column_single (s : Scope) (n : Name) (i : Nat) (v : Var)
    (h : (column n [s])[i]? = some (some v)) : i = 0 ∧ get s.vars n = some v := by
  cases i with
  | zero => exact ⟨rfl, by simpa [column] using h⟩
  | succ i => simp [column] at h

theorem initEnvironment_sane (env : Map Word) (hnd : (env.map (·.1)).Nodup) :
    SaneC (initEnvironment env) := by
  have key : ∀ (i : Nat) n v, (column n (initEnvironment env).scopes)[i]? = some (some v) →
      ∃ w, v = ⟨.scalar (some w), true, false, false, .none⟩ := by
    intro i n v hv
    obtain ⟨s, h1, _, h3⟩ := initEnvironment_vars env n hnd
    rw [h1] at hv
    rw [(column_single s n i v hv).2] at h3
    cases hg : get env n with
    | none => rw [hg] at h3; cases h3
    | some w => rw [hg] at h3; exact ⟨w, by simpa using h3⟩
  refine ⟨?_, ?_, ?_, ?_, ?_⟩
  · obtain ⟨s, h1, h2, _⟩ := initEnvironment_vars env [] hnd
    rw [h1]
    simp [temps, h2]
  · intro i n v hv hr
    obtain ⟨w, rfl⟩ := key i n v hv
    cases hr
  · intro i n v hv _
    obtain ⟨w, rfl⟩ := key i n v hv
    rfl
  · intro i n v hv hg
    obtain ⟨w, rfl⟩ := key i n v hv
    exact absurd rfl hg
  · intro hr
    cases hr

theorem initEnvironment_agrees (env : Map Word) (n : Name) (hnd : (env.map (·.1)).Nodup) :
    AgreesOn n (initEnvironment env) := by
  obtain ⟨s, h1, _, h3⟩ := initEnvironment_vars env n hnd
  unfold AgreesOn
  rw [h1, column, List.map_singleton, h3]
  show get env n = _
  cases get env n with
  | none => rfl
  | some w => rfl

end Yash.Variable
