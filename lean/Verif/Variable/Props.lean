import Verif.Variable.Effect
import Verif.Variable.ArrayProps
/-!
# C25-C27, C40: read-only variables, the environment, scopes and search paths
-/
set_option autoImplicit false

namespace Yash.Variable

open Spec

/-! ## The states the shell can be in -/

/-- `LINENO` and `RANDOM` are set up in a sane state. -/
theorem init_sane (a : Shell) (n : Name) (f : Found) (v : Var) (r : Bool) (ha : SaneC a)
    (hl1 : a.scopes.length = 1) (hf : newGlobal a n = some f) (hv1 : v.readonly = false)
    (hv2 : v.nodelete = false)
    (hv3 : v.getter ≠ .none → n = "LINENO".toList ∨ n = "RANDOM".toList)
    (hv4 : r = true → (n = "RANDOM".toList ∧ v.getter = .random) ∨
        (n ≠ "RANDOM".toList ∧ a.randomActive = true)) :
    SaneC { putVar f.sh f.idx n v with randomActive := r } := by
  have g := newGlobal_spec n a f ha.pos hf
  have hf' := ha.cleared g.cleared
  have hlf := g.cleared.length
  have hidx : f.idx = 0 := by
    rcases g.here with h | h
    · have := h.1
      rw [List.getElem?_eq_some_iff] at this
      have := this.1
      rw [column_length] at this
      omega
    · omega
  have hlp : (putVar f.sh f.idx n v).scopes.length = 1 := by
    rw [← temps_length, putVar_temps, temps_length]
    omega
  have hz : ∀ (i : Nat) w, (column n (putVar f.sh f.idx n v).scopes)[i]? = some (some w) →
      w = v := by
    intro i w hw
    have hi : i = 0 := by
      have := hw
      rw [List.getElem?_eq_some_iff] at this
      have := this.1
      rw [column_length] at this
      omega
    rw [putVar_column, hidx, hi] at hw
    rcases set_some _ _ _ _ _ hw with ⟨_, hc⟩ | ⟨hne, _⟩
    · exact Option.some.inj hc
    · exact absurd rfl hne
  have ho : ∀ m, m ≠ n → column m (putVar f.sh f.idx n v).scopes = column m f.sh.scopes :=
    fun m hm => putVar_column_other _ _ _ _ _ hm
  have ht := putVar_temps f.sh f.idx n v
  refine ⟨ht ▸ hf'.bottom, ?_, ?_, ?_, ?_⟩
  · intro i m w hw hr
    by_cases hm : m = n
    · subst hm; rw [hz i w hw, hv1] at hr; cases hr
    · rw [ho m hm] at hw; exact hf'.kept i m w hw hr
  · intro i m w hw htt
    by_cases hm : m = n
    · subst hm; rw [hz i w hw]; exact hv2
    · rw [ho m hm] at hw
      exact hf'.temporary i m w hw (ht ▸ htt)
  · intro i m w hw hg
    by_cases hm : m = n
    · subst hm; rw [hz i w hw] at hg; exact hv3 hg
    · rw [ho m hm] at hw; exact hf'.getters i m w hw hg
  · intro hra i w hw
    rcases hv4 hra with ⟨hn, hg⟩ | ⟨hn, hg⟩
    · subst hn
      rw [hz i w hw]; exact hg
    · rw [ho _ (fun h => hn h.symm)] at hw
      rw [g.cleared.column_other _ (fun h => hn h.symm)] at hw
      exact ha.random hg i w hw

theorem initLineno_sane (sh sh' : Shell) (hs : SaneC sh) (h1 : sh.scopes.length = 1)
    (h : initLineno sh = some sh') : SaneC sh' := by
  unfold initLineno at h
  cases hf : newGlobal sh "LINENO".toList with
  | none => exact absurd hf (newGlobal_total _ _ hs)
  | some f =>
    simp only [hf] at h
    split at h
    · cases h
    · cases h
      exact init_sane sh "LINENO".toList f ⟨.scalar none, f.var.exported, false, false, .lineno⟩
        f.sh.randomActive hs h1 hf rfl rfl (fun _ => Or.inl rfl)
        (fun h => Or.inr ⟨by decide, (newGlobal_spec _ sh f hs.pos hf).cleared.fields.2 h⟩)

theorem initRandom_sane (sh sh' : Shell) (hs : SaneC sh) (h1 : sh.scopes.length = 1)
    (h : initRandom sh = some sh') : SaneC sh' := by
  unfold initRandom at h
  cases hf : newGlobal sh "RANDOM".toList with
  | none => exact absurd hf (newGlobal_total _ _ hs)
  | some f =>
    simp only [hf] at h
    split at h
    · cases h
    · cases h
      exact init_sane sh "RANDOM".toList f ⟨.scalar none, false, false, false, .random⟩ true hs h1 hf
        rfl rfl (fun _ => Or.inr rfl) (fun _ => Or.inl ⟨rfl, rfl⟩)

/-- Every state the shell can get into is sane. -/
theorem C25_sane (seed : Word → Bool) (ok : Shell → Op → Prop) (sh : Shell)
    (h : Reachable seed ok sh) : Sane sh := by
  rw [sane_iff]
  induction h with
  | start env hnd => exact initEnvironment_sane env hnd
  | lineno sh sh' _ h1 h ih => exact initLineno_sane sh sh' ih h1 h
  | random sh sh' _ h1 h ih => exact initRandom_sane sh sh' ih h1 h
  | step sh sh' op b _ _ h ih => exact step_sane seed sh sh' op b ih h

/-- In a sane state, no assertion fails, except that the caller must not leave the global scope and
may make a temporary assignment only in a scope for temporary assignments. -/
theorem C27_no_abort (seed : Word → Bool) (sh : Shell) (op : Op) (hs : Sane sh) :
    step seed sh op = none ↔
      (op = .leave ∧ sh.scopes.length = 1) ∨
      (∃ n val exp, op = .assign n val .temp exp ∧ PlainAt sh (sh.scopes.length - 1)) := by
  rw [sane_iff] at hs
  have hpos := hs.pos
  cases op with
  | assign n val k exp =>
    have h1 : step seed sh (.assign n val k exp) = none ↔ newVariable sh n k = none := by
      simp only [step, setVariable]
      cases newVariable sh n k with
      | none => simp
      | some f => simp only [reduceCtorEq, iff_false]; split <;> simp
    rw [h1]
    simp only [reduceCtorEq, false_and, false_or, Op.assign.injEq]
    cases k with
    | global => simp [newVariable, newGlobal_total n sh hs]
    | «local» => simp [newVariable, newLocal_total n sh hs]
    | temp =>
      have h2 : newTemporary sh n = none ↔ PlainAt sh (sh.scopes.length - 1) := by
        rw [plainAt_index, show sh.scopes.length - 1 - (sh.scopes.length - 1) = 0 from by omega]
        unfold newTemporary
        cases hsc : sh.scopes with
        | nil => rw [hsc] at hpos; simp at hpos
        | cons s ss =>
          simp only []
          cases ht : s.temp with
          | false => simp [temps, ht]
          | true =>
            simp only [if_true, temps, List.map_cons, ht]
            constructor
            · intro hc
              split at hc
              · split at hc <;> cases hc
              · cases hc
            · intro hc; simp at hc
      rw [newVariable, h2]
      constructor
      · intro h; exact ⟨n, val, exp, ⟨rfl, rfl, rfl, rfl⟩, h⟩
      · rintro ⟨_, _, _, _, h⟩; exact h
  | typeset n val t =>
    simp only [step, Variable.typeset, reduceCtorEq, false_and, false_or, exists_false, iff_false]
    cases t.global with
    | true =>
      simp only [if_true]
      cases hf : newGlobal sh n with
      | none => exact absurd hf (newGlobal_total n sh hs)
      | some f => simp
    | false =>
      simp only [Bool.false_eq_true, if_false]
      cases hf : newLocal sh n with
      | none => exact absurd hf (newLocal_total n sh hs)
      | some f => simp
  | leave =>
    simp only [step, Option.map_eq_none_iff, true_and, reduceCtorEq, false_and, exists_false,
      or_false]
    unfold closeScope
    cases hsc : sh.scopes with
    | nil => rw [hsc] at hpos; simp at hpos
    | cons s ss => cases ss <;> simp
  | _ => simp [step]

/-! ## C25: read-only variables -/

/-- As long as its scope is not left, a read-only variable keeps its value and remains read-only,
whatever is done.

Missing from the full property: `shift -A name` changes a read-only array (`C25_shift_violates`), and
`LINENO` and `RANDOM` produce new values although they are read-only (`C25_getter_violates`). -/
theorem C25_kept_partial (seed : Word → Bool) (sh sh' : Shell) (d : Nat) (n : Name) (v : Var)
    (hs : Sane sh) (hv : varAt sh d n = some v) (hr : v.readonly = true) (hg : v.getter = .none)
    (h : Run seed (fun s op => (op = .leave → d + 1 < s.scopes.length) ∧ ∀ e, op ≠ .shift n e)
      sh sh') :
    ∃ v', varAt sh' d n = some v' ∧ v'.value = v.value ∧ v'.readonly = true := by
  rw [sane_iff] at hs
  have hfix : ∃ w, varAt sh d n = some w ∧ w.value = v.value ∧ w.readonly = true ∧
      w.getter = .none := ⟨v, hv, rfl, hr, hg⟩
  clear hv hr hg
  suffices hh : ∃ w, varAt sh' d n = some w ∧ w.value = v.value ∧ w.readonly = true ∧
      w.getter = .none by
    obtain ⟨w, h1, h2, h3, _⟩ := hh
    exact ⟨w, h1, h2, h3⟩
  generalize v.value = val at *
  induction h with
  | nil => exact hfix
  | cons sh sh1 sh2 op b hok hst _ ih =>
    refine ih (step_sane seed _ _ _ _ hs hst) ?_
    obtain ⟨w, hw, hval, hr, hg⟩ := hfix
    have hd : d < sh.scopes.length := by
      rw [varAt_column, index_level, column_length] at hw
      exact hw.1
    cases hn : opName op with
    | some m =>
      have ho := step_outcome seed sh sh1 op b m hs hn hst
      by_cases hmn : m = n
      · subst hmn
        have hidx := varAt_index sh d m hd
        rw [hw] at hidx
        obtain ⟨u, hu, h1, h2, h3⟩ := ho.fixed hs _ val ⟨w, hidx, hval, hr, hg⟩ hok.2
        refine ⟨u, ?_, h1, h2, h3⟩
        have := varAt_index sh1 d m (by rw [ho.length]; exact hd)
        rw [ho.length, hu] at this
        simpa using this.symm
      · exact ⟨w, (varAt_congr sh sh1 n (ho.other.2 n fun h => hmn h.symm) d).trans hw, hval, hr, hg⟩
    | none =>
      cases op with
      | enter t =>
        simp only [step, Option.some.injEq, Prod.mk.injEq] at hst
        obtain ⟨rfl, _⟩ := hst
        refine ⟨w, ?_, hval, hr, hg⟩
        rw [varAt_column] at hw ⊢
        show (column n (_ :: sh.scopes)).reverse[d]? = _
        rw [column, List.map_cons, getElem?_reverse_cons _ _ _ (by simpa using hd)]
        exact hw
      | leave =>
        simp only [step, Option.map_eq_some_iff] at hst
        obtain ⟨a, ha, he⟩ := hst
        cases he
        obtain ⟨s, ss, h1, _, h2, _⟩ := closeScope_frame sh sh1 ha
        have hdd := hok.1 rfl
        refine ⟨w, ?_, hval, hr, hg⟩
        rw [varAt_column] at hw ⊢
        rw [h2]
        rw [h1] at hdd
        rw [h1, column, List.map_cons, getElem?_reverse_cons _ _ _ (by simpa using hdd)] at hw
        exact hw
      | allexport t =>
        simp only [step, Option.some.injEq, Prod.mk.injEq] at hst
        obtain ⟨rfl, _⟩ := hst
        exact ⟨w, hw, hval, hr, hg⟩
      | _ => cases hn

/-- Every attempt to change the visible variable is reported as an error if that variable is
read-only, and leaves all variables of all scopes as they are. -/
theorem C25_refused (seed : Word → Bool) (sh sh' : Shell) (d : Nat) (n : Name) (v : Var) (op : Op)
    (b : Bool) (hs : Sane sh) (hv : Visible sh n d v) (hr : v.readonly = true)
    (hop : (∃ val exp, op = .assign n val .global exp) ∨ (∃ val exp, op = .assign n val .temp exp) ∨
      (∃ j w, op = .setElement n j w) ∨ op = .unset n ∨ (∃ e, op = .arrayEdit n e))
    (h : step seed sh op = some (sh', b)) :
    b = false ∧ ∀ e m, varAt sh' e m = varAt sh e m := by
  rw [sane_iff] at hs
  obtain ⟨hd, hl⟩ := visible_locate sh n d v hv
  have hidx := varAt_index sh d n hd
  rw [hv.1] at hidx
  have hnd := hs.kept _ _ _ hidx hr
  have hplain : PlainAt sh d := by
    rcases not_temp_plain sh d hd with ht | ht
    · rw [tempAt_index] at ht
      have := hs.temporary _ _ _ hidx ht.2
      rw [hnd] at this
      cases this
    · exact ht
  rcases hop with ⟨val, exp, rfl⟩ | ⟨val, exp, rfl⟩ | ⟨j, w, rfl⟩ | rfl | ⟨e, rfl⟩
  · simp only [step, setVariable, newVariable] at h
    cases hf : newGlobal sh n with
    | none => simp [hf] at h
    | some f =>
      simp only [hf] at h
      obtain ⟨d', ht, p⟩ := global_place n sh f hs hf
      have hdd : d' = d := by
        rcases ht with ⟨h1, h2, h3⟩ | ⟨_, h2⟩
        · rcases Nat.lt_trichotomy d d' with hlt | heq | hgt
          · exact absurd (hv.2 d' hlt) h2
          · exact heq.symm
          · have := h3 d hgt hplain
            rw [hv.1] at this
            cases this
        · have := h2 d hplain
          rw [hv.1] at this
          cases this
      subst hdd
      have hfv : f.var = v := by rw [p.var, hv.1]; rfl
      rw [hfv, hr] at h
      simp only [if_true, Option.some.injEq, Prod.mk.injEq] at h
      obtain ⟨rfl, rfl⟩ := h
      refine ⟨rfl, fun e m => ?_⟩
      by_cases hm : m = n
      · subst hm
        obtain ⟨_, _, _, hlow⟩ := changesOnly_cleared _ _ _ _ p
        rcases Nat.lt_trichotomy e d' with hlt | heq | hgt
        · exact hlow e hlt
        · rw [heq]; exact p.cleared.plain d' hplain
        · rw [p.above e hgt, hv.2 e hgt]
      · exact (changesOnly_cleared _ _ _ _ p).2.2.1 m e hm
  · simp only [step, setVariable, newVariable] at h
    cases hf : newTemporary sh n with
    | none => simp [hf] at h
    | some f =>
      simp only [hf] at h
      obtain ⟨h1, h2⟩ := newTemporary_spec n sh f hf
      rcases h2 with ⟨_, h2⟩ | ⟨_, _, h2, _⟩
      · rw [h2] at h
        simp only [if_true, Option.some.injEq, Prod.mk.injEq] at h
        obtain ⟨rfl, rfl⟩ := h
        exact ⟨rfl, fun e m => by rw [h1]⟩
      · rw [h2 _ _ hl] at hr
        cases hr
  · simp only [step, setArrayElement, hl, hr, if_true, Option.some.injEq] at h
    split at h
    · cases h; exact ⟨rfl, fun _ _ => rfl⟩
    · cases h; exact ⟨rfl, fun _ _ => rfl⟩
  · simp only [step, unsetVariable, hl, hnd, if_true, Option.some.injEq] at h
    cases h
    exact ⟨rfl, fun _ _ => rfl⟩
  · simp only [step, arrayEdit, hl, hr, if_true, Option.some.injEq] at h
    split at h
    · cases h; exact ⟨rfl, fun _ _ => rfl⟩
    · cases h; exact ⟨rfl, fun _ _ => rfl⟩

/-- The same for assignments that go to the scope of a read-only variable which is hidden by
temporary variables, and for local assignments: an assignment fails exactly if the variable it goes
to is read-only. -/
theorem C25_assign_refused (seed : Word → Bool) (sh sh' : Shell) (n : Name) (val : Value)
    (k : ScopeKind) (exp b : Bool) (hs : Sane sh) (hk : k ≠ .temp)
    (h : step seed sh (.assign n val k exp) = some (sh', b)) :
    ∃ d, Target sh n k d ∧
      (b = false ↔ ∃ v, varAt sh d n = some v ∧ v.readonly = true) ∧
      (b = false → varAt sh' d n = varAt sh d n) := by
  rw [sane_iff] at hs
  have key : ∀ (f : Found) (d : Nat), PlainAt sh d → Place n sh f d →
      newVariable sh n k = some f →
      (b = false ↔ ∃ v, varAt sh d n = some v ∧ v.readonly = true) ∧
      (b = false → varAt sh' d n = varAt sh d n) := by
    intro f d hp p hf
    simp only [step, setVariable, hf] at h
    have hvar := p.var
    cases hr : f.var.readonly with
    | true =>
      rw [hr] at h
      simp only [if_true, Option.some.injEq, Prod.mk.injEq] at h
      obtain ⟨rfl, rfl⟩ := h
      refine ⟨⟨fun _ => ?_, fun _ => rfl⟩, fun _ => p.cleared.plain d hp⟩
      cases hv : varAt sh d n with
      | none => rw [hv] at hvar; rw [hvar] at hr; cases hr
      | some v => rw [hv] at hvar; exact ⟨v, rfl, by rw [← hr, hvar]; rfl⟩
    | false =>
      rw [hr] at h
      simp only [Bool.false_eq_true, if_false, Option.some.injEq, Prod.mk.injEq] at h
      obtain ⟨rfl, rfl⟩ := h
      refine ⟨⟨fun h => (by cases h), ?_⟩, fun h => (by cases h)⟩
      rintro ⟨v, h1, h2⟩
      rw [h1] at hvar
      rw [hvar] at hr
      rw [Option.getD_some, h2] at hr
      cases hr
  cases k with
  | temp => exact absurd rfl hk
  | global =>
    cases hf : newGlobal sh n with
    | none => exact absurd hf (newGlobal_total n sh hs)
    | some f =>
      obtain ⟨d, ht, p⟩ := global_place n sh f hs hf
      refine ⟨d, ht, key f d ?_ p hf⟩
      rcases ht with ⟨h1, _⟩ | ⟨h1, _⟩
      · exact h1
      · rw [h1]; exact ((sane_iff sh).mpr hs).bottom
  | «local» =>
    cases hf : newLocal sh n with
    | none => exact absurd hf (newLocal_total n sh hs)
    | some f =>
      obtain ⟨d, ht, p⟩ := local_place n sh f hf
      exact ⟨d, ht, key f d ht.1 p hf⟩

/-- The code violates the property: `shift -A name` removes elements of a read-only array and
reports success. -/
theorem C25_shift_violates (seed : Word → Bool) (sh : Shell) (d : Nat) (n : Name) (v : Var)
    (w : Word) (ws : List Word) (hv : Visible sh n d v) (hr : v.readonly = true)
    (ha : v.value = .array (w :: ws)) :
    ∃ sh' v', step seed sh (.shift n (shiftElements 1)) = some (sh', true) ∧
      Visible sh' n d v' ∧ v'.value = .array ws ∧ v'.readonly = true := by
  obtain ⟨hd, hl⟩ := visible_locate sh n d v hv
  have hsh : shiftElements 1 (w :: ws) = some ws := by
    have := (C28_shift 1 (w :: ws) (by simp)).1
    simpa using this
  refine ⟨putVar sh (sh.scopes.length - 1 - d) n { v with value := .array ws },
    { v with value := .array ws }, ?_, ?_, rfl, hr⟩
  · simp only [step, shiftArray, hl, ha, hsh]
  · have hlp : (putVar sh (sh.scopes.length - 1 - d) n { v with value := .array ws }).scopes.length =
        sh.scopes.length := by rw [← temps_length, putVar_temps, temps_length]
    refine ⟨?_, fun e he => ?_⟩
    · have h1 := varAt_index (putVar sh (sh.scopes.length - 1 - d) n { v with value := .array ws })
        d n (by omega)
      rw [putVar_column, hlp, List.getElem?_set_self (by rw [column_length]; omega)] at h1
      simpa using h1.symm
    · rw [varAt_congr_at sh _ n e hlp (fun _ => ?_), hv.2 e he]
      rw [putVar_column]
      by_cases hel : sh.scopes.length - 1 - d = sh.scopes.length - 1 - e
      · omega
      · rw [List.getElem?_set_ne hel]

/-- The code violates the property: a read-only variable with a computed value, such as `LINENO`,
changes whenever it is read. -/
theorem C25_getter_violates (seed : Word → Bool) (sh : Shell) (d : Nat) (n : Name) (v : Var)
    (o : Option Word) (w : Word) (hv : Visible sh n d v) (ha : v.value = .scalar o)
    (hg : v.getter ≠ .none) :
    ∃ sh', step seed sh (.read n w) = some (sh', true) ∧
      ∃ v', varAt sh' d n = some v' ∧ v'.value = .scalar (some w) ∧ v'.readonly = v.readonly := by
  obtain ⟨hd, hl⟩ := visible_locate sh n d v hv
  refine ⟨_, rfl, { v with value := .scalar (some w) }, ?_, rfl, rfl⟩
  simp only [readVariable, hl, ha, hg, if_false]
  generalize hsh : reexportIf v.exported (putVar sh (sh.scopes.length - 1 - d) n
    { v with value := .scalar (some w) }) n = sh'
  have hcol : column n sh'.scopes = (column n sh.scopes).set (sh.scopes.length - 1 - d)
      (some { v with value := .scalar (some w) }) := by
    rw [← hsh, reexportIf_scopes, putVar_column]
  have hlp : sh'.scopes.length = sh.scopes.length := by
    rw [← column_length n, hcol, List.length_set, column_length]
  have h1 := varAt_index sh' d n (by omega)
  rw [hcol, hlp, List.getElem?_set_self (by rw [column_length]; omega)] at h1
  simpa using h1.symm

/-! ## C26: the process environment -/

/-- At the start, the environment agrees with the variables. -/
theorem C26_initial (env : Map Word) (hnd : (env.map (·.1)).Nodup) :
    EnvironmentAgrees (initEnvironment env) :=
  (environmentAgrees_iff _).mpr fun n _ => initEnvironment_agrees env n hnd

/-- The environment agrees with the exported variables after every sequence of operations.

Missing from the full property: `array -d`, `array -i`, `array -s` and `shift -A` do not update the
environment when they change an exported array (`C26_edit_violates`), and the initialization of
`RANDOM` leaves an inherited value there (`C26_random_violates`). -/
theorem C26_agrees_partial (seed : Word → Bool) (sh sh' : Shell) (hs : Sane sh)
    (ha : EnvironmentAgrees sh) (h : Run seed (fun s op => ¬ EditsExportedArray s op) sh sh') :
    EnvironmentAgrees sh' := by
  rw [sane_iff] at hs
  rw [environmentAgrees_iff] at ha ⊢
  induction h with
  | nil => exact ha
  | cons sh sh1 sh2 op b hok hst _ ih =>
    refine ih (step_sane seed _ _ _ _ hs hst) fun m hm => ?_
    cases hn : opName op with
    | some n =>
      refine (step_outcome seed sh sh1 op b n hs hn hst).agrees m hm (ha m hm) ?_
      intro _ i v hl ho
      cases he : v.exported with
      | false => rfl
      | true =>
        exfalso
        apply hok
        obtain ⟨_, hvis⟩ := locate_visible sh n i v hl
        rcases ho with ⟨e, ho⟩ | ⟨e, ho⟩
        · exact ⟨n, e, _, v, Or.inr ho, hvis, he⟩
        · exact ⟨n, e, _, v, Or.inl ho, hvis, he⟩
    | none =>
      cases op with
      | enter t =>
        simp only [step, Option.some.injEq, Prod.mk.injEq] at hst
        obtain ⟨rfl, _⟩ := hst
        exact ha m hm
      | leave =>
        simp only [step, Option.map_eq_some_iff] at hst
        obtain ⟨a, hc, he⟩ := hst
        cases he
        exact closeScope_agrees sh sh1 m hm (ha m hm) hc
      | allexport t =>
        simp only [step, Option.some.injEq, Prod.mk.injEq] at hst
        obtain ⟨rfl, _⟩ := hst
        exact ha m hm
      | _ => cases hn

/-- The code violates the property: after a change of the elements of a visible exported array by
`array -d`, `-i` or `-s`, the environment still has the old value. -/
theorem C26_edit_violates (seed : Word → Bool) (sh : Shell) (d : Nat) (n : Name) (v : Var)
    (vs vs' : List Word) (edit : List Word → Option (List Word))
    (hn : n ≠ [] ∧ '=' ∉ n) (ha : EnvironmentAgrees sh) (hv : Visible sh n d v)
    (hr : v.readonly = false) (he : v.exported = true) (hval : v.value = .array vs)
    (hed : edit vs = some vs')
    (hne : List.intercalate [':'] vs' ≠ List.intercalate [':'] vs) :
    ∃ sh', step seed sh (.arrayEdit n edit) = some (sh', true) ∧
      environAt sh' n = some (List.intercalate [':'] vs) ∧
      Exports sh' n (List.intercalate [':'] vs') ∧ ¬ EnvironmentAgrees sh' := by
  obtain ⟨hd, hl⟩ := visible_locate sh n d v hv
  generalize hsh : putVar sh (sh.scopes.length - 1 - d) n { v with value := .array vs' } = sh'
  have hcol : column n sh'.scopes = (column n sh.scopes).set (sh.scopes.length - 1 - d)
      (some { v with value := .array vs' }) := by
    rw [← hsh, putVar_column]
  have hlp : sh'.scopes.length = sh.scopes.length := by
    rw [← column_length n, hcol, List.length_set, column_length]
  have hex : Exports sh' n (List.intercalate [':'] vs') := by
    refine ⟨d, { v with value := .array vs' }, ?_, he, rfl, fun e u hde hu => ?_⟩
    · have h1 := varAt_index sh' d n (by omega)
      rw [hcol, hlp, List.getElem?_set_self (by rw [column_length]; omega)] at h1
      simpa using h1.symm
    · rw [varAt_congr_at sh sh' n e hlp (fun hel => by
        rw [hcol, List.getElem?_set_ne (by omega)]), hv.2 e hde] at hu
      cases hu
  have henv : environAt sh' n = some (List.intercalate [':'] vs) := by
    have : sh'.environ = sh.environ := by rw [← hsh]; rfl
    rw [environAt, this]
    refine (ha n hn.1 hn.2 _).mpr ⟨d, v, hv.1, he, ?_, fun e u hde hu => ?_⟩
    · simp [text, hval]
    · rw [hv.2 e hde] at hu
      cases hu
  refine ⟨sh', ?_, henv, hex, fun hag => ?_⟩
  · simp only [step, arrayEdit, hl, hval, hr, Bool.false_eq_true, if_false, hed]
    rw [← hsh]
    simp [hr]
  · have h2 := (hag n hn.1 hn.2 _).mpr hex
    rw [henv] at h2
    exact hne (Option.some.inj h2).symm

/-- The code violates the property: if the shell is started with `RANDOM` in its environment, the
variable `RANDOM` is not exported, but commands still get the old value. -/
theorem C26_random_violates (env : Map Word) (w : Word) (hnd : (env.map (·.1)).Nodup)
    (h : get env "RANDOM".toList = some w) :
    ∃ sh, initRandom (initEnvironment env) = some sh ∧
      environAt sh "RANDOM".toList = some w ∧
      (∀ d v, varAt sh d "RANDOM".toList = some v → v.exported = false) ∧
      ¬ EnvironmentAgrees sh := by
  obtain ⟨s, h1, h2, h3⟩ := initEnvironment_vars env "RANDOM".toList hnd
  rw [h, Option.map_some] at h3
  have hng : newGlobal (initEnvironment env) "RANDOM".toList =
      some ⟨initEnvironment env, 0, ⟨.scalar (some w), true, false, false, .none⟩⟩ := by
    rw [newGlobal, h1]
    show newGlobalLoop _ 1 0 _ = _
    rw [newGlobalLoop, h1]
    simp only [List.getElem?_cons_zero, h3, h2, Bool.false_eq_true, if_false]
  generalize hsh : ({ putVar (initEnvironment env) 0 "RANDOM".toList
    ⟨.scalar none, false, false, false, .random⟩ with randomActive := true } : Shell) = sh
  have hcol : column "RANDOM".toList sh.scopes =
      (column "RANDOM".toList (initEnvironment env).scopes).set 0
        (some ⟨.scalar none, false, false, false, .random⟩) := by
    rw [← hsh]; exact putVar_column _ _ _ _
  have henv : environAt sh "RANDOM".toList = some w := by
    rw [← hsh]
    show (env.find? fun e => e.1 = "RANDOM".toList).map (·.2) = some w
    rw [← get_eq_find, h]
  have hex : ∀ d v, varAt sh d "RANDOM".toList = some v → v.exported = false := by
    intro d v hv
    rw [varAt_column, index_level] at hv
    obtain ⟨_, hv⟩ := hv
    rw [hcol] at hv
    rcases set_some _ _ _ _ _ hv with ⟨_, hc⟩ | ⟨hne, hc⟩
    · cases hc; rfl
    · exfalso
      revert hne hc
      generalize List.length _ - 1 - d = i
      intro hne hc
      rw [h1] at hc
      exact hne (column_single _ _ _ _ hc).1.symm
  refine ⟨sh, ?_, henv, hex, fun hag => ?_⟩
  · rw [initRandom, hng, ← hsh]
    rfl
  · obtain ⟨d, v, hv, he, _⟩ := (hag _ (by decide) (by decide) w).mp henv
    rw [hex d v hv] at he
    cases he

/-! ## C27: scopes -/

/-- An operation that concerns only inner scopes leaves the variables of the outer ones alone. -/
theorem C27_frame (seed : Word → Bool) (sh sh' : Shell) (op : Op) (b : Bool) (base : Nat) (n : Name)
    (hs : Sane sh) (hbl : base < sh.scopes.length) (hc : Confined base n sh op)
    (h : step seed sh op = some (sh', b)) :
    base < sh'.scopes.length ∧ ∀ d, d < base → varAt sh' d n = varAt sh d n := by
  rw [sane_iff] at hs
  cases hn : opName op with
  | some m =>
    have ho := step_outcome seed sh sh' op b m hs hn h
    refine ⟨by rw [ho.length]; exact hbl, fun d hd => ?_⟩
    by_cases hmn : m = n
    · subst hmn
      have ht := ho.confined hs base hc hbl hn
      exact varAt_congr_at sh sh' m d ho.length fun _ => ht _ (by omega)
    · exact varAt_congr sh sh' n (ho.other.2 n fun h => hmn h.symm) d
  | none =>
    cases op with
    | enter t =>
      simp only [step, Option.some.injEq, Prod.mk.injEq] at h
      obtain ⟨rfl, _⟩ := h
      refine ⟨by simp only [openScope, List.length_cons]; omega, fun d hd => ?_⟩
      apply Option.ext
      intro v
      rw [varAt_column, varAt_column]
      show (column n (_ :: sh.scopes)).reverse[d]? = _ ↔ _
      rw [column, List.map_cons, getElem?_reverse_cons _ _ _ (by simp; omega)]
      rfl
    | leave =>
      simp only [step, Option.map_eq_some_iff] at h
      obtain ⟨a, ha, he⟩ := h
      cases he
      obtain ⟨s, ss, h1, _, h2, _⟩ := closeScope_frame sh sh' ha
      have hlen : sh'.scopes.length = ss.length := by
        rw [← column_length n, h2, column_length]
      have hc' : base + 1 < sh.scopes.length := hc
      rw [h1, List.length_cons] at hc'
      refine ⟨by omega, fun d hd => ?_⟩
      apply Option.ext
      intro v
      rw [varAt_column, varAt_column, h2, h1, column, column, List.map_cons,
        getElem?_reverse_cons _ _ _ (by simp; omega)]
    | allexport t =>
      simp only [step, Option.some.injEq, Prod.mk.injEq] at h
      obtain ⟨rfl, _⟩ := h
      exact ⟨hbl, fun _ _ => rfl⟩
    | _ => cases hn

theorem run_frame (seed : Word → Bool) (sh sh' : Shell) (base : Nat) (n : Name) (hs : SaneC sh)
    (hbl : base < sh.scopes.length) (h : Run seed (Confined base n) sh sh') :
    SaneC sh' ∧ base < sh'.scopes.length ∧ ∀ d, d < base → varAt sh' d n = varAt sh d n := by
  induction h with
  | nil => exact ⟨hs, hbl, fun _ _ => rfl⟩
  | cons sh sh1 sh2 op b hok hst _ ih =>
    obtain ⟨h1, h2⟩ := C27_frame seed sh sh1 op b base n ((sane_iff _).mpr hs) hbl hok hst
    obtain ⟨h3, h4, h5⟩ := ih (step_sane seed _ _ _ _ hs hst) h1
    exact ⟨h3, h4, fun d hd => (h5 d hd).trans (h2 d hd)⟩

/-- Everything that a function or a temporary assignment does to variables of its own is undone when
the scope it has entered is left: all scopes have the same variable `n` as before, and so has the
environment of the commands that are run from then on. -/
theorem C27_restored (seed : Word → Bool) (sh sh1 sh2 : Shell) (t : Bool) (n : Name) (hs : Sane sh)
    (h : Run seed (Confined sh.scopes.length n) (openScope sh t) sh1)
    (hl : sh1.scopes.length = sh.scopes.length + 1) (hc : closeScope sh1 = some sh2) :
    sh2.scopes.length = sh.scopes.length ∧ (∀ d, varAt sh2 d n = varAt sh d n) ∧
      (EnvironmentAgrees sh → EnvironmentAgrees sh2 → n ≠ [] → '=' ∉ n →
        environAt sh2 n = environAt sh n) := by
  rw [sane_iff] at hs
  obtain ⟨_, _, h1⟩ := run_frame seed (openScope sh t) sh1 sh.scopes.length n (hs.open t)
    (by simp [openScope]) h
  obtain ⟨s, ss, h2, _, h3, _⟩ := closeScope_frame sh1 sh2 hc
  have hlen : sh2.scopes.length = ss.length := by
    rw [← column_length n, h3, column_length]
  rw [h2, List.length_cons] at hl
  have hv : ∀ d, varAt sh2 d n = varAt sh d n := by
    intro d
    by_cases hd : d < sh.scopes.length
    · have ha : varAt sh2 d n = varAt sh1 d n := by
        apply Option.ext
        intro v
        rw [varAt_column, varAt_column, h3, h2, column, column, List.map_cons,
          getElem?_reverse_cons _ _ _ (by simp; omega)]
      have hb : varAt (openScope sh t) d n = varAt sh d n := by
        apply Option.ext
        intro v
        rw [varAt_column, varAt_column]
        show (column n (_ :: sh.scopes)).reverse[d]? = _ ↔ _
        rw [column, List.map_cons, getElem?_reverse_cons _ _ _ (by simpa using hd)]
        rfl
      rw [ha, h1 d hd, hb]
    · rw [varAt_beyond sh d n (by omega), varAt_beyond sh2 d n (by omega)]
  refine ⟨by omega, hv, fun ha ha2 hn1 hn2 => ?_⟩
  apply Option.ext
  intro w
  rw [ha n hn1 hn2 w, ha2 n hn1 hn2 w]
  simp only [Exports, hv]

/-- Entering a scope adds one of the kind asked for, without variables, and changes nothing else. -/
theorem C27_enter (seed : Word → Bool) (sh sh' : Shell) (t b : Bool)
    (h : step seed sh (.enter t) = some (sh', b)) :
    b = true ∧ sh'.scopes.length = sh.scopes.length + 1 ∧
      (TempAt sh' sh.scopes.length ↔ t = true) ∧ (PlainAt sh' sh.scopes.length ↔ t = false) ∧
      (∀ n, varAt sh' sh.scopes.length n = none) ∧
      (∀ d, d < sh.scopes.length → ((TempAt sh' d ↔ TempAt sh d) ∧
        ∀ n, varAt sh' d n = varAt sh d n)) ∧
      ∀ n, environAt sh' n = environAt sh n := by
  simp only [step, Option.some.injEq, Prod.mk.injEq] at h
  obtain ⟨rfl, rfl⟩ := h
  have htop : (openScope sh t).scopes.reverse[sh.scopes.length]? = some ⟨[], t, []⟩ := by
    simp [openScope]
  have hlow : ∀ d, d < sh.scopes.length →
      (openScope sh t).scopes.reverse[d]? = sh.scopes.reverse[d]? := by
    intro d hd
    exact getElem?_reverse_cons _ _ _ hd
  refine ⟨rfl, rfl, ?_, ?_, fun n => ?_, fun d hd => ⟨?_, fun n => ?_⟩, fun n => rfl⟩
  · simp [TempAt, htop]
  · simp [PlainAt, htop]
  · simp [varAt, htop]
  · simp [TempAt, hlow d hd]
  · simp [varAt, hlow d hd]

/-- Leaving a scope takes the innermost one away and changes no other. -/
theorem C27_leave (seed : Word → Bool) (sh sh' : Shell) (b : Bool)
    (h : step seed sh .leave = some (sh', b)) :
    b = true ∧ sh'.scopes.length + 1 = sh.scopes.length ∧
      ∀ d, d < sh'.scopes.length → (TempAt sh' d ↔ TempAt sh d) ∧
        ∀ n, varAt sh' d n = varAt sh d n := by
  simp only [step, Option.map_eq_some_iff] at h
  obtain ⟨a, ha, he⟩ := h
  cases he
  obtain ⟨s, ss, h1, _, h2, h3, _⟩ := closeScope_frame sh sh' ha
  have hlen : sh'.scopes.length = ss.length := by
    rw [← temps_length, h3, temps_length]
  refine ⟨rfl, by rw [h1, hlen, List.length_cons], fun d hd => ⟨?_, fun n => ?_⟩⟩
  · rw [tempAt_temps, tempAt_temps, h3, h1, temps, temps, List.map_cons,
      getElem?_reverse_cons _ _ _ (by simp; omega)]
  · apply Option.ext
    intro v
    rw [varAt_column, varAt_column, h2, h1, column, column, List.map_cons,
      getElem?_reverse_cons _ _ _ (by simp; omega)]

/-- A successful assignment: the variable of the scope that the assignment goes to has the value, is
visible, and nothing else has changed but temporary variables of the same name in inner scopes, which
are gone. -/
theorem C27_assigned (seed : Word → Bool) (sh sh' : Shell) (n : Name) (val : Value) (k : ScopeKind)
    (exp : Bool) (hs : Sane sh) (h : step seed sh (.assign n val k exp) = some (sh', true)) :
    ∃ d v, Target sh n k d ∧ ChangesOnly n d sh sh' ∧ Visible sh' n d v ∧
      v.value = val ∧ v.readonly = false ∧
      (v.nodelete = true ↔ ∃ u, varAt sh d n = some u ∧ u.nodelete = true) ∧
      (v.exported = true ↔ exp = true ∨ (sh.allexport = true ∧ n.head? ≠ some '=') ∨
        ∃ u, varAt sh d n = some u ∧ u.exported = true) := by
  rw [sane_iff] at hs
  have key : ∀ (f : Found) (d : Nat), Place n sh f d → newVariable sh n k = some f →
      ∃ v, ChangesOnly n d sh sh' ∧ Visible sh' n d v ∧ v.value = val ∧ v.readonly = false ∧
        (v.nodelete = true ↔ ∃ u, varAt sh d n = some u ∧ u.nodelete = true) ∧
        (v.exported = true ↔ exp = true ∨ (sh.allexport = true ∧ n.head? ≠ some '=') ∨
          ∃ u, varAt sh d n = some u ∧ u.exported = true) := by
    intro f d p hf
    simp only [step, setVariable, hf] at h
    split at h
    · cases h
    · simp only [Option.some.injEq, Prod.mk.injEq, and_true] at h
      subst h
      have hp := fun v b => place_store seed n sh f d v b p
      refine ⟨_, (hp _ _).1, ⟨(hp _ _).2.1, (hp _ _).2.2⟩, ?_, ?_, ?_, ?_⟩
      · rw [(stored_fields _ _ _ _).1]
      · rw [(stored_fields _ _ _ _).2.2.1]
      · rw [(stored_fields _ _ _ _).2.2.2, p.var]
        cases varAt sh d n <;> simp [Var.fresh]
      · rw [(stored_fields _ _ _ _).2.1, p.var]
        cases hv : varAt sh d n with
        | none =>
          simp only [Option.getD_none, Var.fresh, Bool.or_eq_true, Bool.and_eq_true, bne_iff_ne, ne_eq,
            reduceCtorEq, false_and, exists_false, or_false, Bool.false_eq_true, false_or]
        | some u =>
          simp only [Option.getD_some, Bool.or_eq_true, Bool.and_eq_true, bne_iff_ne, ne_eq,
            Option.some.injEq, exists_eq_left']
          constructor
          · rintro ((h | h) | h)
            · exact Or.inr (Or.inr h)
            · exact Or.inl h
            · exact Or.inr (Or.inl h)
          · rintro (h | h | h)
            · exact Or.inl (Or.inr h)
            · exact Or.inr h
            · exact Or.inl (Or.inl h)
  cases k with
  | global =>
    cases hf : newGlobal sh n with
    | none => exact absurd hf (newGlobal_total n sh hs)
    | some f =>
      obtain ⟨d, ht, p⟩ := global_place n sh f hs hf
      obtain ⟨v, hv⟩ := key f d p hf
      exact ⟨d, v, ht, hv⟩
  | «local» =>
    cases hf : newLocal sh n with
    | none => exact absurd hf (newLocal_total n sh hs)
    | some f =>
      obtain ⟨d, ht, p⟩ := local_place n sh f hf
      obtain ⟨v, hv⟩ := key f d p hf
      exact ⟨d, v, ht, hv⟩
  | temp =>
    cases hf : newTemporary sh n with
    | none => simp [step, setVariable, newVariable, hf] at h
    | some f =>
      have hr : f.var.readonly = false := by
        cases hr : f.var.readonly with
        | false => rfl
        | true => simp [step, setVariable, newVariable, hf, hr] at h
      obtain ⟨d, ht, p⟩ := temp_place n sh f hr hf
      obtain ⟨v, hv⟩ := key f d p hf
      exact ⟨d, v, ht, hv⟩

/-- `typeset`, `export`, `readonly`: the variable concerned is that of the scope an assignment would
go to.  It is created without a value if need be, gets the value unless it is read-only, and its
attributes change as asked. -/
theorem C27_typeset (seed : Word → Bool) (sh sh' : Shell) (n : Name) (val : Option Word)
    (t : TypesetFlags) (b : Bool) (hs : Sane sh)
    (h : step seed sh (.typeset n val t) = some (sh', b)) :
    ∃ d v u, Target sh n (if t.global = true then .global else .local) d ∧
      ChangesOnly n d sh sh' ∧ Visible sh' n d v ∧
      (varAt sh d n = some u ∨ varAt sh d n = none ∧ u = ⟨.scalar none, false, false, false, .none⟩) ∧
      v.value = (if u.readonly = true then u.value else
        val.elim u.value fun w => .scalar (some w)) ∧
      (v.readonly = true ↔ u.readonly = true ∨ t.readonly = true) ∧
      (v.exported = true ↔ t.exp = true ∨ (t.unexp = false ∧ u.exported = true)) ∧
      (b = false ↔ u.readonly = true ∧ val ≠ none) := by
  rw [sane_iff] at hs
  have key : ∀ (f : Found) (d : Nat), Place n sh f d →
      (if t.global then newGlobal sh n else newLocal sh n) = some f →
      ∃ v u, ChangesOnly n d sh sh' ∧ Visible sh' n d v ∧
        (varAt sh d n = some u ∨
          varAt sh d n = none ∧ u = ⟨.scalar none, false, false, false, .none⟩) ∧
        v.value = (if u.readonly = true then u.value else
          val.elim u.value fun w => .scalar (some w)) ∧
        (v.readonly = true ↔ u.readonly = true ∨ t.readonly = true) ∧
        (v.exported = true ↔ t.exp = true ∨ (t.unexp = false ∧ u.exported = true)) ∧
        (b = false ↔ u.readonly = true ∧ val ≠ none) := by
    intro f d p hf
    simp only [step, Variable.typeset, hf, Option.some.injEq, Prod.mk.injEq] at h
    obtain ⟨rfl, rfl⟩ := h
    have hp := fun v b => place_store seed n sh f d v b p
    refine ⟨_, f.var, (hp _ _).1, ⟨(hp _ _).2.1, (hp _ _).2.2⟩, ?_, ?_, ?_, ?_, ?_⟩
    · rw [p.var]
      cases varAt sh d n with
      | none => exact Or.inr ⟨rfl, rfl⟩
      | some u => exact Or.inl rfl
    · rw [(stored_fields _ _ _ _).1]
      cases val <;> cases hr : f.var.readonly <;> simp [typesetVar, hr]
    · rw [(stored_fields _ _ _ _).2.2.1]
      simp [typesetVar]
    · rw [(stored_fields _ _ _ _).2.1]
      cases h1 : t.exp <;> cases h2 : t.unexp <;> simp [typesetVar, h1, h2]
    · cases val <;> simp
  cases hg : t.global with
  | true =>
    cases hf : newGlobal sh n with
    | none => exact absurd hf (newGlobal_total n sh hs)
    | some f =>
      obtain ⟨d, ht, p⟩ := global_place n sh f hs hf
      obtain ⟨v, u, hv⟩ := key f d p (by rw [hg]; exact hf)
      exact ⟨d, v, u, ht, hv⟩
  | false =>
    cases hf : newLocal sh n with
    | none => exact absurd hf (newLocal_total n sh hs)
    | some f =>
      obtain ⟨d, ht, p⟩ := local_place n sh f hf
      obtain ⟨v, u, hv⟩ := key f d p (by rw [hg]; exact hf)
      exact ⟨d, v, u, ht, hv⟩

/-- `unset` removes the visible variable, unless it is protected, and nothing else.  What it hid
becomes visible. -/
theorem C27_unset (seed : Word → Bool) (sh sh' : Shell) (n : Name) (b : Bool)
    (h : step seed sh (.unset n) = some (sh', b)) :
    (∀ m e, m ≠ n → varAt sh' e m = varAt sh e m) ∧
    (b = false ↔ ∃ d v, Visible sh n d v ∧ v.nodelete = true) ∧
    (b = false → ∀ e, varAt sh' e n = varAt sh e n) ∧
    (b = true → ∀ d v, Visible sh n d v →
      varAt sh' d n = none ∧ ∀ e, e ≠ d → varAt sh' e n = varAt sh e n) := by
  simp only [step, unsetVariable, Option.some.injEq] at h
  cases hl : locate sh.scopes n with
  | none =>
    simp only [hl, Prod.mk.injEq] at h
    obtain ⟨rfl, rfl⟩ := h
    have hno : ∀ d v, ¬ Visible sh n d v := by
      intro d v hv
      rw [(visible_locate sh n d v hv).2] at hl
      cases hl
    refine ⟨fun _ _ _ => rfl, ⟨fun h => (by cases h), ?_⟩, fun _ _ => rfl, ?_⟩
    · rintro ⟨d, v, hv, _⟩
      exact absurd hv (hno d v)
    · intro _ d v hv
      exact absurd hv (hno d v)
  | some p =>
    obtain ⟨i, v⟩ := p
    obtain ⟨hi, hvis⟩ := locate_visible sh n i v hl
    have huniq : ∀ d u, Visible sh n d u → i = sh.scopes.length - 1 - d ∧ v = u ∧
        d < sh.scopes.length := by
      intro d u hu
      obtain ⟨h1, h2⟩ := visible_locate sh n d u hu
      rw [hl, Option.some.injEq, Prod.mk.injEq] at h2
      exact ⟨h2.1, h2.2, h1⟩
    simp only [hl] at h
    cases hnd : v.nodelete with
    | true =>
      simp only [hnd, if_true, Prod.mk.injEq] at h
      obtain ⟨rfl, rfl⟩ := h
      exact ⟨fun _ _ _ => rfl, ⟨fun _ => ⟨_, v, hvis, hnd⟩, fun _ => rfl⟩, fun _ _ => rfl,
        fun h => (by cases h)⟩
    | false =>
      simp only [hnd, Bool.false_eq_true, if_false, Prod.mk.injEq] at h
      obtain ⟨rfl, rfl⟩ := h
      have hlen : (dropVar sh i n v).scopes.length = sh.scopes.length := by
        rw [← temps_length, dropVar_temps, temps_length]
      refine ⟨fun m e hm => varAt_congr _ _ _ (dropVar_column_other sh i n m v hm) e,
        ⟨fun h => (by cases h), ?_⟩, fun h => (by cases h), ?_⟩
      · rintro ⟨d, u, hu, hu'⟩
        rw [← (huniq d u hu).2.1, hnd] at hu'
        cases hu'
      · intro _ d u hu
        obtain ⟨h1, _, h3⟩ := huniq d u hu
        constructor
        · have := varAt_index (dropVar sh i n v) d n (by omega)
          rw [dropVar_column, hlen, ← h1, List.getElem?_set_self (by rw [column_length]; omega)] at this
          simpa using this.symm
        · intro e he
          refine varAt_congr_at sh _ n e hlen fun hel => ?_
          rw [dropVar_column, List.getElem?_set_ne (by omega)]

/-! ## C40: the directories searched -/

/-- The directories that are searched are always those of the variable.

Missing from the full property: a change of single elements of an array (`C40_edit_violates`). -/
theorem C40_paths_partial (seed : Word → Bool) (sh : Shell)
    (h : Reachable seed (fun _ op => ¬ EditsPathArray op) sh) : PathsAgree sh := by
  apply pathsAgree_of_allOk
  intro m
  have hs := (sane_iff _).mp (C25_sane seed _ sh h)
  have key : ∀ (sh : Shell) (n : Name) (v : Var) (f : Found), SaneC sh → AllOk m sh.scopes →
      newGlobal sh n = some f → isPathVar n = false → AllOk m (putVar f.sh f.idx n v).scopes := by
    intro sh n v f hs ha hf hp
    refine putVar_allOk _ _ _ _ _ ((newGlobal_spec n sh f hs.pos hf).cleared.allOk m ha) ?_
    rintro h rfl
    rw [hp] at h
    cases h
  clear hs
  induction h with
  | start env hnd => exact initEnvironment_allOk env m
  | lineno sh sh' hr _ h ih =>
    have hs := (sane_iff _).mp (C25_sane seed _ sh hr)
    unfold initLineno at h
    cases hf : newGlobal sh "LINENO".toList with
    | none => exact absurd hf (newGlobal_total _ _ hs)
    | some f =>
      simp only [hf] at h
      split at h
      · cases h
      · cases h
        exact key sh _ _ f hs ih hf (by decide)
  | random sh sh' hr _ h ih =>
    have hs := (sane_iff _).mp (C25_sane seed _ sh hr)
    unfold initRandom at h
    cases hf : newGlobal sh "RANDOM".toList with
    | none => exact absurd hf (newGlobal_total _ _ hs)
    | some f =>
      simp only [hf] at h
      split at h
      · cases h
      · cases h
        exact key sh _ _ f hs ih hf (by decide)
  | step sh sh' op b hr hok h ih =>
    exact step_allOk seed sh sh' op b ((sane_iff _).mp (C25_sane seed _ sh hr)) h m ih hok

/-- The directories searched have no repetitions. -/
theorem C40_nodup (v : Var) (ps : List Word) (h : Directories v ps) : ps.Nodup := by
  have key : ∀ ws acc : List Word, acc.Nodup → (addNoDup acc ws).Nodup := by
    intro ws
    induction ws with
    | nil => exact fun _ h => h
    | cons w ws ih =>
      intro acc hacc
      rw [addNoDup]
      apply ih
      split
      · exact hacc
      · rename_i hc
        simp only [List.contains_eq_mem, decide_eq_true_eq] at hc
        rw [List.nodup_append]
        refine ⟨hacc, by simp, fun a ha b hb hab => ?_⟩
        simp only [List.mem_singleton] at hb
        subst hb; subst hab
        exact hc ha
  have hf : ∀ ws : List Word, (firsts ws).Nodup := fun ws => by
    rw [← addNoDup_firsts]
    exact key ws [] (by simp)
  unfold Directories at h
  split at h
  · exact absurd h id
  · obtain ⟨parts, _, _, _, rfl⟩ := h
    exact hf parts
  · rw [h]; exact hf _

theorem getPathArray_putVar (n : Name) (v : Var) (m : Name) (ss : List Scope) :
    ∀ i, getPathArray (ss.modify i fun s => { s with vars := put s.vars n v }) m =
      getPathArray ss m := by
  induction ss with
  | nil => intro i; cases i <;> rfl
  | cons s ss ih =>
    intro i
    cases i with
    | zero => rfl
    | succ i =>
      rw [List.modify_succ_cons, getPathArray, getPathArray, ih]

/-- The code violates the property: after the assignment of an element of a path variable that is an
array (`${PATH[1]:=/bin}`), the directories searched are still the old ones. -/
theorem C40_edit_violates (seed : Word → Bool) (sh : Shell) (n : Name) (d j : Nat) (v : Var)
    (vs : List Word) (w : Word) (hn : n = "PATH".toList ∨ n = "CDPATH".toList ∨
      n = "YASH_LOADPATH".toList) (ha : PathsAgree sh) (hv : Visible sh n d v)
    (hr : v.readonly = false) (hval : v.value = .array vs) (hj : j < vs.length)
    (hne : firsts (vs.set j w) ≠ firsts vs) :
    ∃ sh', step seed sh (.setElement n j w) = some (sh', true) ∧
      getPathArray sh'.scopes n = some (firsts vs) ∧ SearchPath sh' n (firsts (vs.set j w)) ∧
      ¬ PathsAgree sh' := by
  obtain ⟨hd, hl⟩ := visible_locate sh n d v hv
  generalize hsh : reexportIf v.exported (putVar sh (sh.scopes.length - 1 - d) n
    { v with value := .array (vs.set j w) }) n = sh'
  have hsc : sh'.scopes = (putVar sh (sh.scopes.length - 1 - d) n
      { v with value := .array (vs.set j w) }).scopes := by
    rw [← hsh, reexportIf_scopes]
  have hcol : column n sh'.scopes = (column n sh.scopes).set (sh.scopes.length - 1 - d)
      (some { v with value := .array (vs.set j w) }) := by
    rw [hsc, putVar_column]
  have hlp : sh'.scopes.length = sh.scopes.length := by
    rw [← column_length n, hcol, List.length_set, column_length]
  have h1 : getPathArray sh'.scopes n = some (firsts vs) := by
    rw [hsc]
    show getPathArray (sh.scopes.modify _ _) n = _
    rw [getPathArray_putVar]
    refine (ha n hn _).mpr ⟨d, v, hv.1, ?_, fun e u he hu => ?_⟩
    · simp [Directories, hval]
    · rw [hv.2 e he] at hu
      cases hu
  have h2 : SearchPath sh' n (firsts (vs.set j w)) := by
    refine ⟨d, { v with value := .array (vs.set j w) }, ?_, rfl, fun e u he hu => ?_⟩
    · have h1 := varAt_index sh' d n (by omega)
      rw [hcol, hlp, List.getElem?_set_self (by rw [column_length]; omega)] at h1
      simpa using h1.symm
    · rw [varAt_congr_at sh sh' n e hlp (fun hel => by
        rw [hcol, List.getElem?_set_ne (by omega)]), hv.2 e he] at hu
      cases hu
  refine ⟨sh', ?_, h1, h2, fun hag => ?_⟩
  · simp only [step, setArrayElement, hl, hval]
    rw [if_neg (by simp [hr]), if_neg (by omega), hsh]
  · have := (hag n hn _).mpr h2
    rw [h1] at this
    exact hne (Option.some.inj this).symm

/-! ## The hypotheses are met -/

/-- A sequence of operations. -/
def runAll (sh : Shell) : List Op → Option Shell
  | [] => some sh
  | op :: ops => (step (fun _ => true) sh op).bind fun r => runAll r.1 ops

theorem runAll_reachable (ops : List Op) :
    ∀ sh sh', Reachable (fun _ => true) (fun _ _ => True) sh → runAll sh ops = some sh' →
      Reachable (fun _ => true) (fun _ _ => True) sh' := by
  induction ops with
  | nil => intro sh sh' h he; cases he; exact h
  | cons op ops ih =>
    intro sh sh' h he
    rw [runAll, Option.bind_eq_some_iff] at he
    obtain ⟨⟨r, b⟩, h1, h2⟩ := he
    exact ih r sh' (.step sh r op b h trivial h1) h2

def demoStart : Shell :=
  initEnvironment [("PATH".toList, "/bin:/usr/bin:/bin".toList), ("x".toList, "1".toList)]

def demoOps : List Op :=
  [.typeset "x".toList none ⟨true, true, false, false⟩, .enter false,
   .typeset "x".toList (some "2".toList) ⟨false, false, true, false⟩,
   .assign "a".toList (.array ["p".toList, "q".toList]) .local false,
   .typeset "a".toList none ⟨false, true, false, false⟩,
   .assign "b".toList (.array ["p".toList, "q".toList]) .local true,
   .assign "PATH".toList (.array ["/opt".toList, "/bin".toList]) .local false]

/-- A shell started with a `PATH` and an `x`, where `x` was made read-only, in a function that has a
local `x`, a read-only array `a` and an exported array `b`. -/
def demo : Shell := (runAll demoStart demoOps).getD demoStart

theorem demo_reachable : Reachable (fun _ => true) (fun _ _ => True) demo := by
  refine runAll_reachable demoOps demoStart demo (.start _ (by decide)) ?_
  rw [demo]
  cases h : runAll demoStart demoOps with
  | some sh => rfl
  | none =>
    have : (runAll demoStart demoOps).isSome = true := by decide +kernel
    rw [h] at this
    cases this

theorem demo_visible (n : Name) (d : Nat) (v : Var) (h : varAt demo d n = some v)
    (h1 : d = 1 ∨ varAt demo 1 n = none) : Visible demo n d v := by
  refine ⟨h, fun e he => ?_⟩
  by_cases h2 : 2 ≤ e
  · exact varAt_beyond demo e n h2
  · rcases h1 with rfl | h1
    · omega
    · by_cases h3 : e = 1
      · rw [h3]; exact h1
      · omega

/-- The global `x` of the demonstration is read-only; the local one is visible and not read-only; `a`
is a visible read-only array; `b` is a visible exported array. -/
example : Sane demo ∧
    (∃ v, varAt demo 0 "x".toList = some v ∧ v.readonly = true ∧ v.getter = .none ∧
      v.value = .scalar (some "1".toList)) ∧
    (∃ v, Visible demo "x".toList 1 v ∧ v.readonly = false ∧ v.value = .scalar (some "2".toList)) ∧
    (∃ v, Visible demo "a".toList 1 v ∧ v.readonly = true ∧
      v.value = .array ["p".toList, "q".toList]) ∧
    (∃ v, Visible demo "b".toList 1 v ∧ v.readonly = false ∧ v.exported = true ∧
      v.value = .array ["p".toList, "q".toList]) ∧
    environAt demo "x".toList = some "2".toList ∧
    environAt demo "b".toList = some "p:q".toList ∧
    getPathArray demo.scopes "PATH".toList = some ["/opt".toList, "/bin".toList] :=
  ⟨C25_sane _ _ _ demo_reachable, ⟨_, rfl, rfl, rfl, rfl⟩,
    ⟨_, demo_visible _ _ _ rfl (Or.inl rfl), rfl, rfl⟩, ⟨_, demo_visible _ _ _ rfl (Or.inl rfl), rfl, rfl⟩,
    ⟨_, demo_visible _ _ _ rfl (Or.inl rfl), rfl, rfl, rfl⟩, rfl, rfl, rfl⟩

/-- A use of `C25_kept_partial`: leaving the function and assigning to `x` is a run it speaks of. -/
example (seed : Word → Bool) : ∃ sh', Run seed
    (fun s op => (op = .leave → 0 + 1 < s.scopes.length) ∧ ∀ e, op ≠ .shift "x".toList e) demo sh' ∧
    sh'.scopes.length = 1 :=
  ⟨_, .cons _ _ _ .leave true ⟨fun _ => (by decide), fun _ h => (by cases h)⟩ rfl
    (.cons _ _ _ (.assign "x".toList (.scalar (some [])) .global false) false
      ⟨fun h => (by cases h), fun _ h => (by cases h)⟩ rfl (.nil _)), rfl⟩

/-- A use of `C27_restored`: in a scope for temporary assignments, `x=3` and then `export x`. -/
example (seed : Word → Bool) : ∃ sh1 sh2, Run seed (Confined demo.scopes.length "x".toList)
      (openScope demo true) sh1 ∧ sh1.scopes.length = demo.scopes.length + 1 ∧
      environAt sh1 "x".toList = some "3".toList ∧
      closeScope sh1 = some sh2 ∧ environAt sh2 "x".toList = some "2".toList :=
  ⟨_, _, .cons _ _ _ (.assign "x".toList (.scalar (some "3".toList)) .temp true) true trivial rfl
    (.nil _), rfl, rfl, rfl, rfl⟩

/-- The hypotheses of `C26_edit_violates`: `array -d b 1`. -/
example : removeElements (fun _ => some 1) ["1".toList] ["p".toList, "q".toList] = some ["q".toList] ∧
    List.intercalate [':'] ["q".toList] ≠ List.intercalate [':'] ["p".toList, "q".toList] := by
  decide +kernel

/-- The hypotheses of `C40_edit_violates`: `array -s PATH 1 /x`. -/
example : firsts (["/opt".toList, "/bin".toList].set 0 "/x".toList) ≠
    firsts ["/opt".toList, "/bin".toList] := by decide +kernel

end Yash.Variable
