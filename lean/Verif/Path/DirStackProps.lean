import Verif.Path.DirStackSpec
import Verif.Path.CdProps
import Verif.Getopts.Lemmas
/-!
# C30: the directory stack
-/
set_option autoImplicit false

namespace Yash.Path

open Variable (Name Word Shell setVariable unsetVariable locate putVar reexportIf)
open Variable.Spec (varAt Sane Visible)
open Spec

/-! ## Variables -/

theorem dirstack_some (sh : Shell) (vs : List Word) :
    dirstack sh = some vs ↔ ∃ d v, Visible sh "DIRSTACK".toList d v ∧ v.value = .array vs := by
  unfold dirstack
  constructor
  · intro h
    split at h
    · rename_i i v hl
      split at h
      · rename_i ws hv
        cases h
        exact ⟨_, v, (Variable.locate_visible sh dirstackName i v hl).2, hv⟩
      · cases h
    · cases h
  · rintro ⟨d, v, hvis, hv⟩
    have hl : locate sh.scopes dirstackName = _ := (Variable.visible_locate _ _ _ _ hvis).2
    rw [hl]
    simp only [hv]

theorem below_iff (sh : Shell) (ds : List Word) : Below sh ds ↔ (dirstack sh).getD [] = ds.reverse := by
  unfold Below
  rw [← dirstack_some]
  cases h : dirstack sh with
  | some vs =>
    simp only [Option.some.injEq, Option.getD_some]
    constructor
    · rintro (h1 | ⟨h1, _⟩)
      · exact h1
      · obtain ⟨d, v, h2, h3⟩ := (dirstack_some _ _).mp h
        exact absurd h3 (h1 d v vs h2)
    · exact Or.inl
  | none =>
    simp only [reduceCtorEq, false_or, Option.getD_none]
    constructor
    · rintro ⟨_, rfl⟩; rfl
    · intro h1
      refine ⟨fun d v ws h2 h3 => ?_, ?_⟩
      · have := (dirstack_some sh ws).mpr ⟨d, v, h2, h3⟩
        rw [h] at this
        cases this
      · exact List.reverse_eq_nil_iff.mp h1.symm

theorem visible_congr (sh sh' : Shell) (n : Name) (h : ∀ d, varAt sh' d n = varAt sh d n) (d : Nat)
    (v : Variable.Var) : Visible sh' n d v ↔ Visible sh n d v := by
  unfold Visible
  simp only [h]

theorem dirstack_congr (sh sh' : Shell) (h : ∀ d, varAt sh' d dirstackName = varAt sh d dirstackName) :
    dirstack sh' = dirstack sh := by
  apply Option.ext
  intro vs
  rw [dirstack_some, dirstack_some]
  simp only [show ∀ d v, Visible sh' "DIRSTACK".toList d v ↔ Visible sh "DIRSTACK".toList d v from
    visible_congr sh sh' dirstackName h]

theorem changeable_congr (sh sh' : Shell) (h : ∀ d, varAt sh' d dirstackName = varAt sh d dirstackName) :
    Changeable sh' ↔ Changeable sh := by
  unfold Changeable
  simp only [show ∀ d v, Visible sh' "DIRSTACK".toList d v ↔ Visible sh "DIRSTACK".toList d v from
    visible_congr sh sh' dirstackName h]

/-- What a change of the elements does. -/
theorem editStack_spec (sh sh' : Shell) (u : Bool) (f : List Word → Option (List Word)) (hs : Sane sh)
    (h : editStack sh u f = some sh') :
    ∃ vs vs', dirstack sh = some vs ∧ f vs = some vs' ∧ dirstack sh' = some vs' ∧ Sane sh' ∧
      SameExcept ["DIRSTACK".toList] sh sh' ∧ (Changeable sh → Changeable sh') ∧
      (vs' = vs → ∀ m d, varAt sh' d m = varAt sh d m) := by
  unfold editStack at h
  split at h
  · cases h
  · rename_i i v hl
    split at h
    · cases h
    · rename_i vs hv
      split at h
      · cases h
      · rename_i vs' hf
        cases h
        have ho : Variable.Outcome (fun _ => false) sh dirstackName (.shift dirstackName fun _ => none)
            (reexportIf (u && v.exported) (putVar sh i dirstackName { v with value := .array vs' }) dirstackName)
            true := .edited _ i v _ _ rfl hl (Or.inr (Or.inr ⟨_, rfl⟩)) (Or.inr (Or.inl ⟨_, rfl⟩))
              (fun m w h => by cases h)
        have hcol : Variable.column dirstackName (reexportIf (u && v.exported)
            (putVar sh i dirstackName { v with value := .array vs' }) dirstackName).scopes =
            (Variable.column dirstackName sh.scopes).set i (some { v with value := .array vs' }) := by
          rw [Variable.reexportIf_scopes, Variable.putVar_column]
        have hloc : locate (reexportIf (u && v.exported)
            (putVar sh i dirstackName { v with value := .array vs' }) dirstackName).scopes dirstackName =
            some (i, { v with value := .array vs' }) := by
          obtain ⟨h1, h2⟩ := (Variable.locate_column _ _ _ _).mp hl
          rw [Variable.locate_column, hcol]
          have hlt : i < (Variable.column dirstackName sh.scopes).length := by
            rcases Nat.lt_or_ge i (Variable.column dirstackName sh.scopes).length with h | h
            · exact h
            · rw [List.getElem?_eq_none h] at h1; cases h1
          refine ⟨by rw [List.getElem?_set_self hlt], fun j hj => ?_⟩
          rw [List.getElem?_set_ne (by omega)]
          exact h2 j hj
        refine ⟨vs, vs', ?_, hf, ?_, (Variable.sane_iff _).mpr (ho.sane ((Variable.sane_iff _).mp hs)), ?_, ?_, ?_⟩
        · simp only [dirstack, hl, hv]
        · simp only [dirstack, hloc]
        · intro m hm d
          exact Variable.varAt_congr _ _ m (ho.other.2 m (fun h => hm (List.mem_singleton.mpr h))) d
        · intro hc d x hx
          have hvis := (Variable.locate_visible sh dirstackName i v hl).2
          have h1 : locate _ dirstackName = _ := (Variable.visible_locate _ _ _ _ hx).2
          rw [hloc, Option.some.injEq, Prod.mk.injEq] at h1
          rw [← h1.2]
          exact ⟨⟨vs', rfl⟩, (hc _ v hvis).2⟩
        · intro hvv m d
          subst hvv
          apply Variable.varAt_congr
          by_cases hm : m = dirstackName
          · subst hm
            rw [hcol, ← hv]
            obtain ⟨h1, h2⟩ := (Variable.locate_column _ _ _ _).mp hl
            apply List.ext_getElem?
            intro j
            by_cases hj : i = j
            · subst hj
              rw [List.getElem?_set_self', h1]
              rfl
            · rw [List.getElem?_set_ne hj]
          · exact ho.other.2 m hm

/-- `editStack` changes the list if there is one. -/
theorem editStack_total (sh : Shell) (u : Bool) (f : List Word → Option (List Word)) (vs vs' : List Word)
    (h : dirstack sh = some vs) (hf : f vs = some vs') : ∃ sh', editStack sh u f = some sh' := by
  unfold dirstack at h
  unfold editStack
  split at h
  · rename_i i v hl
    split at h
    · rename_i ws hv
      cases h
      rw [hl]
      simp only [hv, hf]
      exact ⟨_, rfl⟩
    · cases h
  · cases h

theorem getDirstack_spec (seed : Word → Bool) (sh : Shell) (hs : Sane sh) :
    ∃ sh' b, getDirstack seed sh = some (sh', b) ∧ Sane sh' ∧ SameExcept ["DIRSTACK".toList] sh sh' ∧
      (dirstack sh').getD [] = (dirstack sh).getD [] ∧
      (Changeable sh → b = true ∧ Changeable sh' ∧ ∃ vs, dirstack sh' = some vs) ∧
      (¬ Changeable sh → b = false ∧ sh' = sh) := by
  unfold getDirstack
  cases hl : locate sh.scopes dirstackName with
  | some r =>
    obtain ⟨i, v⟩ := r
    obtain ⟨d, hvis⟩ : ∃ d, Visible sh "DIRSTACK".toList d v :=
      ⟨_, (Variable.locate_visible sh dirstackName i v hl).2⟩
    have huniq : ∀ d' v', Visible sh "DIRSTACK".toList d' v' → v' = v := by
      intro d' v' h
      have := (Variable.visible_locate _ _ _ _ h).2
      have h2 : locate sh.scopes dirstackName = _ := this
      rw [hl] at h2
      cases h2
      rfl
    cases hv : v.value with
    | scalar w =>
      simp only [hv]
      refine ⟨sh, false, rfl, hs, fun _ _ _ => rfl, rfl, fun h => ?_, fun _ => ⟨rfl, rfl⟩⟩
      obtain ⟨⟨ws, h1⟩, _⟩ := h d v hvis
      rw [hv] at h1
      cases h1
    | array vs =>
      simp only [hv]
      refine ⟨sh, !v.readonly, rfl, hs, fun _ _ _ => rfl, rfl, fun h => ?_, fun h => ⟨?_, rfl⟩⟩
      · exact ⟨by simp [(h d v hvis).2], h, vs, by simp only [dirstack, hl, hv]⟩
      · cases hr : v.readonly with
        | true => rfl
        | false =>
          refine absurd (fun d' v' h' => ?_) h
          rw [huniq d' v' h']
          exact ⟨⟨vs, hv⟩, hr⟩
  | none =>
    simp only
    have hno : ∀ d v, ¬ Visible sh "DIRSTACK".toList d v := by
      intro d v h
      have : locate sh.scopes dirstackName = _ := (Variable.visible_locate _ _ _ _ h).2
      rw [hl] at this
      cases this
    have hcol : ∀ d, varAt sh d dirstackName = none := by
      intro d
      rw [Variable.varAt_none]
      intro v hv
      have h1 := (Variable.locate_none _ _).mp hl (some v) (List.mem_reverse.mp (List.mem_of_getElem? hv))
      cases h1
    cases h : setVariable seed sh dirstackName (.array []) .global false with
    | none =>
      have := (Variable.C27_no_abort seed sh (.assign dirstackName (.array []) .global false) hs).mp h
      rcases this with ⟨h, _⟩ | ⟨_, _, _, h, _⟩ <;> cases h
    | some r =>
      obtain ⟨sh', b⟩ := r
      have hst : Variable.step seed sh (.assign dirstackName (.array []) .global false) = some (sh', b) := h
      have ho := Variable.step_outcome seed sh sh' _ b dirstackName ((Variable.sane_iff sh).mp hs) rfl hst
      have hb : b = true := by
        obtain ⟨d, _, h1, _⟩ := Variable.C25_assign_refused seed sh sh' dirstackName _ .global false b hs (by decide) hst
        cases b with
        | true => rfl
        | false =>
          obtain ⟨v, h2, h3⟩ := h1.mp rfl
          rw [hcol] at h2
          cases h2
      subst hb
      obtain ⟨d, v, _, hc, hv, hval, hr, _⟩ := Variable.C27_assigned seed sh sh' dirstackName _ .global false hs hst
      refine ⟨sh', true, rfl, (Variable.sane_iff sh').mpr (ho.sane ((Variable.sane_iff sh).mp hs)), ?_, ?_, ?_, ?_⟩
      · intro m hm d
        exact Variable.varAt_congr _ _ m (ho.other.2 m (fun h => hm (List.mem_singleton.mpr h))) d
      · rw [(dirstack_some sh' []).mpr ⟨d, v, hv, hval⟩]
        simp only [dirstack, hl, Option.getD_some, Option.getD_none]
      · intro _
        refine ⟨rfl, fun d' v' h' => ?_, [], (dirstack_some sh' []).mpr ⟨d, v, hv, hval⟩⟩
        have h1 := (Variable.visible_locate _ _ _ _ h').2
        have h2 : locate sh'.scopes "DIRSTACK".toList = _ := (Variable.visible_locate _ _ _ _ hv).2
        rw [h1, Option.some.injEq, Prod.mk.injEq] at h2
        rw [h2.2]
        exact ⟨⟨[], hval⟩, hr⟩
      · intro h'
        exact absurd (fun d v hv => absurd hv (hno d v)) h'

/-! ## `cd` and other variables -/

/-- The state after an operation that changes `PWD` and `OLDPWD` only. -/
structure Frame (sh sh' : Shell) : Prop where
  sane : Sane sh'
  other : SameExcept ["PWD".toList, "OLDPWD".toList] sh sh'

theorem Frame.refl {sh : Shell} (h : Sane sh) : Frame sh sh := ⟨h, fun _ _ _ => rfl⟩

theorem Frame.trans {a b c : Shell} (h : Frame a b) (h' : Frame b c) : Frame a c :=
  ⟨h'.sane, fun m hm d => (h'.other m hm d).trans (h.other m hm d)⟩

theorem Assigned.frame {sh sh' : Shell} {n : Name} {w : Word} (h : Assigned sh n w sh')
    (hn : n = pwdName ∨ n = oldpwdName) : Frame sh sh' := by
  refine ⟨h.sane, fun m hm d => h.other m ?_ d⟩
  rintro rfl
  simp only [List.mem_cons, List.not_mem_nil, or_false] at hm
  exact hm hn

theorem setScalar_frame (seed : Word → Bool) (sh sh' : Shell) (n : Name) (w : Word) (hs : Sane sh)
    (hn : n = pwdName ∨ n = oldpwdName) (h : setScalar seed sh n w = some sh') : Frame sh sh' := by
  obtain ⟨s, h1, h2⟩ := setScalar_assigned seed sh n w hs
  rw [h] at h1
  cases h1
  exact h2.frame hn

theorem finish_frame {N : Type} (seed : Word → Bool) (sys : Sys N) (posix : Bool) (sh : Shell) (cwd : N)
    (origpwd : Option Word) (logical print : Bool) (curpath : Word) (w : World N) (r : CdResult)
    (hs : Sane sh) (h : finish seed sys posix sh cwd origpwd logical print curpath = some (w, r)) :
    Frame sh w.sh := by
  unfold finish at h
  split at h
  · cases h
  · rename_i sh1 h1
    have hf1 : Frame sh sh1 := by
      unfold setOldpwd at h1
      split at h1
      · exact setScalar_frame _ _ _ _ _ hs (Or.inr rfl) h1
      · cases h1; exact .refl hs
    split at h
    · rw [Option.map_eq_some_iff] at h
      obtain ⟨sh2, h2, h3⟩ := h
      cases h3
      exact hf1.trans (setScalar_frame _ _ _ _ _ hf1.sane (Or.inl rfl) h2)
    · split at h
      · cases h; exact hf1
      · rw [Option.map_eq_some_iff] at h
        obtain ⟨sh2, h2, h3⟩ := h
        cases h3
        exact hf1.trans (setScalar_frame _ _ _ _ _ hf1.sane (Or.inl rfl) h2)

theorem enterDir_frame {N : Type} (seed : Word → Bool) (sys : Sys N) (posix : Bool) (sh : Shell) (cwd : N)
    (origpwd : Option Word) (logical print : Bool) (curpath target : Word) (w : World N) (r : CdResult)
    (hs : Sane sh) (h : enterDir seed sys posix sh cwd origpwd logical print curpath target = some (w, r)) :
    Frame sh w.sh := by
  unfold enterDir at h
  split at h
  · cases h; exact .refl hs
  · exact finish_frame _ _ _ _ _ _ _ _ _ _ _ hs h

theorem checkPrep_cases (s : Shell) (l : Bool) (o : Option Word) (p : Prep) (h : checkPrep s l o = some p) :
    ∃ l' o', p = .go s l' o' := by
  cases o with
  | none =>
    simp only [checkPrep] at h
    split at h
    · cases h
    · cases h; exact ⟨_, _, rfl⟩
  | some q =>
    simp only [checkPrep] at h
    split at h
    · cases h; exact ⟨_, _, rfl⟩
    · cases h

theorem prepare_frame {N : Type} (seed : Word → Bool) (sys : Sys N) (w : World N) (samePwd logical : Bool)
    (hs : Sane w.sh) (sh : Shell) (p : Prep) (hp : (∃ l o, p = .go sh l o) ∨ p = .fail sh)
    (h : prepare seed sys w samePwd logical = some p) : Frame w.sh sh := by
  have key : ∀ s l o, checkPrep s l o = some p → s = sh := by
    intro s l o hc
    obtain ⟨l', o', rfl⟩ := checkPrep_cases s l o p hc
    rcases hp with ⟨l, o, hp⟩ | hp <;> cases hp
    rfl
  have same : p = .fail w.sh → Frame w.sh sh := by
    rintro rfl
    rcases hp with ⟨l, o, hp⟩ | hp
    · cases hp
    · cases hp; exact .refl hs
  unfold prepare at h
  simp only at h
  split at h
  · rw [← key _ _ _ h]; exact .refl hs
  · split at h
    · cases h; exact same rfl
    · split at h
      · split at h
        · cases h; exact same rfl
        · rw [← key _ _ _ h]; exact .refl hs
      · split at h
        · cases h
        · rename_i sh1 h1
          rw [← key _ _ _ h]
          exact (setVariable_assigned seed _ _ _ _ _ _ hs h1).1.frame (Or.inl rfl)
        · rename_i sh1 h1
          rw [← key _ _ _ h]
          exact (setVariable_assigned seed _ _ _ _ _ _ hs h1).1.frame (Or.inl rfl)

/-- `cd` changes no variables but `PWD` and `OLDPWD`. -/
theorem cd_frame {N : Type} (seed : Word → Bool) (sys : Sys N) (posix : Bool) (w w' : World N)
    (operand : Word) (samePwd print logical : Bool) (r : CdResult) (hs : Sane w.sh)
    (h : changeDirectory seed sys posix w operand samePwd print logical = some (w', r)) : Frame w.sh w'.sh := by
  unfold changeDirectory at h
  split at h
  · cases h
  · rename_i sh hp
    cases h
    exact prepare_frame seed sys w samePwd logical hs sh _ (Or.inr rfl) hp
  · rename_i sh lg orig hp
    have hf := prepare_frame seed sys w samePwd logical hs sh _ (Or.inl ⟨_, _, rfl⟩) hp
    refine hf.trans ?_
    unfold goTo at h
    simp only at h
    split at h
    · split at h
      · cases h
      · split at h
        · cases h
        · cases h; exact .refl hf.sane
        · split at h
          · cases h
          · exact enterDir_frame _ _ _ _ _ _ _ _ _ _ _ _ hf.sane h
    · exact enterDir_frame _ _ _ _ _ _ _ _ _ _ _ _ hf.sane h

theorem cdHook_frame {N : Type} (seed : Word → Bool) (sys : Sys N) (posix : Bool) (hook : World N → World N)
    (hn : Neutral hook) (w w' : World N) (operand : Word) (samePwd print logical : Bool) (r : CdResult)
    (hs : Sane w.sh)
    (h : changeDirectoryHook seed sys posix hook w operand samePwd print logical = some (w', r)) :
    Sane w'.sh ∧ ∀ d, varAt w'.sh d dirstackName = varAt w.sh d dirstackName := by
  unfold changeDirectoryHook at h
  split at h
  · cases h
  · rename_i w1 hc
    cases h
    have hf := cd_frame _ _ _ _ _ _ _ _ _ _ hs hc
    exact ⟨hf.sane, hf.other _ (by decide)⟩
  · rename_i w1 out hc
    have hf := cd_frame _ _ _ _ _ _ _ _ _ _ hs hc
    cases h
    split
    · exact ⟨hf.sane, hf.other _ (by decide)⟩
    · refine ⟨(hn _ hf.sane).1, fun d => ?_⟩
      exact ((hn _ hf.sane).2 d).trans (hf.other _ (by decide) d)

/-! ## Indices -/

theorem digit_iff (c : Char) : ('0' ≤ c && c ≤ '9') = c.isDigit := by
  simp only [Char.isDigit, Char.le_def, ge_iff_le]

theorem digitsValue_spec (s : Word) (acc n : Nat) :
    digitsValue s acc = some n ↔ (∀ c ∈ s, c.isDigit = true) ∧
      n = s.foldl (fun a c => a * 10 + (c.toNat - '0'.toNat)) acc := by
  induction s generalizing acc with
  | nil =>
    rw [digitsValue, Option.some.injEq, List.foldl_nil]
    exact ⟨fun h => ⟨fun c hc => absurd hc (by simp), h.symm⟩, fun h => h.2.symm⟩
  | cons c s ih =>
    rw [digitsValue, digit_iff]
    cases hc : c.isDigit with
    | true => simp only [if_true, ih, List.mem_cons, forall_eq_or_imp, hc, true_and, List.foldl_cons]
    | false => simp [hc]

theorem numeral_iff (c : Char) (s : Word) (n : Nat) :
    digitsValue (c :: s) 0 = some n ↔ Numeral (c :: s) n := by
  rw [digitsValue_spec]
  simp [Numeral]

theorem numeral_unique {s : Word} {m n : Nat} (h : Numeral s m) (h' : Numeral s n) : m = n :=
  h.2.2.trans h'.2.2.symm

theorem signedNumber_spec (s : Word) (num : Int) :
    signedNumber s = some num ↔ ∃ ds n, Numeral ds n ∧
      ((s = '+' :: ds ∧ n ≤ 9223372036854775807 ∧ num = n) ∨
        (s = '-' :: ds ∧ n ≤ 9223372036854775808 ∧ num = -(n : Int))) := by
  have hne : ∀ ds n, Numeral ds n → ∃ c t, ds = c :: t := by
    rintro (_ | ⟨c, t⟩) n h
    · exact absurd rfl h.1
    · exact ⟨c, t, rfl⟩
  constructor
  · intro h
    unfold signedNumber at h
    split at h
    · split at h
      · rename_i n hn
        split at h
        · rename_i hle
          cases h
          exact ⟨_, n, (numeral_iff _ _ _).mp hn, Or.inl ⟨rfl, hle, rfl⟩⟩
        · cases h
      · cases h
    · split at h
      · rename_i n hn
        split at h
        · rename_i hle
          cases h
          exact ⟨_, n, (numeral_iff _ _ _).mp hn, Or.inr ⟨rfl, hle, rfl⟩⟩
        · cases h
      · cases h
    · cases h
  · rintro ⟨ds, n, hn, ⟨rfl, hle, rfl⟩ | ⟨rfl, hle, rfl⟩⟩
    · obtain ⟨c, t, rfl⟩ := hne ds n hn
      simp only [signedNumber, (numeral_iff c t n).mpr hn, hle, if_true]
    · obtain ⟨c, t, rfl⟩ := hne ds n hn
      simp only [signedNumber, (numeral_iff c t n).mpr hn, hle, if_true]

theorem signedNumber_none (s : Word) : signedNumber s = none ↔ ¬ IndexText s := by
  constructor
  · rintro h ⟨ds, n, hn, ⟨rfl, hle⟩ | ⟨rfl, hle⟩⟩
    · rw [(signedNumber_spec _ n).mpr ⟨ds, n, hn, Or.inl ⟨rfl, hle, rfl⟩⟩] at h; cases h
    · rw [(signedNumber_spec _ (-(n : Int))).mpr ⟨ds, n, hn, Or.inr ⟨rfl, hle, rfl⟩⟩] at h; cases h
  · intro h
    cases hs : signedNumber s with
    | none => rfl
    | some num =>
      obtain ⟨ds, n, hn, ⟨h1, h2, _⟩ | ⟨h1, h2, _⟩⟩ := (signedNumber_spec _ _).mp hs
      · exact absurd ⟨ds, n, hn, Or.inl ⟨h1, h2⟩⟩ h
      · exact absurd ⟨ds, n, hn, Or.inr ⟨h1, h2⟩⟩ h

theorem entries_split (sh : Shell) (es : List Word) (he : Entries sh es) :
    ∃ p, getvar sh pwdName = some p ∧ es = p :: ((dirstack sh).getD []).reverse := by
  obtain ⟨p, ds, h1, h2, rfl⟩ := he
  rw [below_iff] at h2
  exact ⟨p, (getvar_value _ _ _).mpr h1, by rw [h2, List.reverse_reverse]⟩

/-- An entry below the top. -/
theorem entry_below (p : Word) (vs : List Word) (i : Nat) (h : i < vs.length) :
    (p :: vs.reverse)[vs.length - i]? = vs[i]? := by
  rw [show vs.length - i = (vs.length - 1 - i) + 1 from by omega, List.getElem?_cons_succ,
    List.getElem?_reverse (by omega)]
  congr 1
  omega

/-- **C30.**  `+n` is the `n`-th entry from the top and `-n` the `n`-th from the bottom; the top is the working
directory.  Other numbers are errors, other texts are no indices. -/
theorem C30_index (sh : Shell) (es : List Word) (he : Entries sh es) (s : Word) :
    (∀ k, Designates es s k → ∃ d, es[k]? = some d ∧
      parseIndex sh s = some (.entry (es.length - 1 - k) d (decide (k = 0)))) ∧
    (IndexText s → (∀ k, ¬ Designates es s k) → parseIndex sh s = some .error) ∧
    (¬ IndexText s → parseIndex sh s = some .notIndex) := by
  obtain ⟨p, hp, rfl⟩ := entries_split sh es he
  have hlen : ∀ vs : List Word, (p :: vs.reverse).length = vs.length + 1 := by simp
  have hpwd : ∀ i, pwdEntry sh i = .entry i p true := by intro i; simp only [pwdEntry, hp]
  have hplus : ∀ ds n, Numeral ds n → n ≤ 9223372036854775807 →
      signedNumber ('+' :: ds) = some (n : Int) := fun ds n hn hle =>
    (signedNumber_spec _ _).mpr ⟨ds, n, hn, Or.inl ⟨rfl, hle, rfl⟩⟩
  have hminus : ∀ ds n, Numeral ds n → n ≤ 9223372036854775808 →
      signedNumber ('-' :: ds) = some (-(n : Int)) := fun ds n hn hle =>
    (signedNumber_spec _ _).mpr ⟨ds, n, hn, Or.inr ⟨rfl, hle, rfl⟩⟩
  refine ⟨?_, ?_, ?_⟩
  · intro k hk
    cases hk with
    | plus ds n hn hle hlt =>
      unfold parseIndex
      rw [if_neg (by simp), hplus ds _ hn hle]
      simp only [List.head?_cons]
      cases hd : dirstack sh with
      | none =>
        rw [hd] at hlt
        have : k = 0 := by simpa using hlt
        subst this
        refine ⟨p, rfl, ?_⟩
        simp [hpwd]
      | some vs =>
        rw [hd] at hlt
        simp only [Option.getD_some, hlen] at hlt ⊢
        simp only [beq_self_eq_true, Int.natCast_nonneg, ge_iff_le, decide_true, Bool.and_self, if_true]
        by_cases h0 : k = 0
        · subst h0
          refine ⟨p, rfl, ?_⟩
          simp [hpwd]
        · have hi : vs.length - k < vs.length := by omega
          refine ⟨vs[vs.length - k], ?_, ?_⟩
          · have := entry_below p vs (vs.length - k) hi
            rw [show vs.length - (vs.length - k) = k from by omega] at this
            rw [this, List.getElem?_eq_getElem hi]
          · rw [if_neg (by omega), if_neg (by simp; omega)]
            simp only [stackEntry, Int.toNat_natCast, List.getElem?_eq_getElem hi, Option.map_some, h0, decide_false,
              Nat.add_sub_cancel]
    | minus ds n _ hn hle hlt =>
      unfold parseIndex
      rw [if_neg (by simp), hminus ds _ hn (by omega)]
      simp only [List.head?_cons]
      cases hd : dirstack sh with
      | none =>
        rw [hd] at hlt
        have h1 : k = 0 := by simp at hlt; omega
        have h2 : n = 0 := by simp at hlt; omega
        subst h1 h2
        refine ⟨p, rfl, ?_⟩
        simp [hpwd]
      | some vs =>
        rw [hd] at hlt
        simp only [Option.getD_some, hlen] at hlt ⊢
        have hneg : (-(-(n : Int))).toNat = n := by omega
        simp only [show ((some '-' : Option Char) == some '+') = false from by decide, Bool.false_and,
          Bool.false_eq_true, if_false, beq_self_eq_true, Bool.true_and]
        rw [if_pos (by simp), if_neg (by omega), hneg, if_neg (by omega)]
        by_cases h0 : k = 0
        · subst h0
          refine ⟨p, rfl, ?_⟩
          rw [if_pos (by omega), hpwd]
          simp
          omega
        · have hi : n < vs.length := by omega
          refine ⟨vs[n], ?_, ?_⟩
          · have := entry_below p vs n hi
            rw [show vs.length - n = k from by omega] at this
            rw [this, List.getElem?_eq_getElem hi]
          · rw [if_neg (by omega)]
            simp only [stackEntry, List.getElem?_eq_getElem hi, Option.map_some, h0, decide_false]
            congr 2
            omega
  · rintro ⟨ds, n, hn, ⟨rfl, hle⟩ | ⟨rfl, hle⟩⟩ hno
    · have hge : (p :: ((dirstack sh).getD []).reverse).length ≤ n :=
        Nat.le_of_not_lt fun h => hno n (.plus ds n hn hle h)
      unfold parseIndex
      rw [if_neg (by simp), hplus ds _ hn hle]
      simp only [List.head?_cons]
      cases hd : dirstack sh with
      | none =>
        rw [hd] at hge
        simp at hge
        simp only
        rw [if_neg (by omega)]
      | some vs =>
        rw [hd] at hge
        simp only [Option.getD_some, hlen] at hge
        simp only [beq_self_eq_true, Int.natCast_nonneg, ge_iff_le, decide_true, Bool.and_self, if_true]
        rw [if_neg (by omega), if_pos (by omega)]
    · unfold parseIndex
      rw [if_neg (by simp), hminus ds _ hn hle]
      simp only [List.head?_cons]
      have hge : n ≤ 9223372036854775807 → (p :: ((dirstack sh).getD []).reverse).length ≤ n := fun hle =>
        Nat.le_of_not_lt fun h => hno _ (.minus ds n ((p :: ((dirstack sh).getD []).reverse).length - 1 - n) hn hle (by omega))
      cases hd : dirstack sh with
      | none =>
        rw [hd] at hge
        simp at hge
        simp only
        rw [if_neg (by omega)]
      | some vs =>
        rw [hd] at hge
        simp only [Option.getD_some, hlen] at hge
        simp only [show ((some '-' : Option Char) == some '+') = false from by decide, Bool.false_and,
          Bool.false_eq_true, if_false, beq_self_eq_true, Bool.true_and]
        rw [if_pos (by simp)]
        split
        · rfl
        · have := hge (by omega)
          rw [if_pos (by omega)]
  · intro hno
    unfold parseIndex
    split
    · rfl
    · rw [(signedNumber_none s).mpr hno]

/-! ## Changes of the list -/

theorem removeAt_reverse (i : Nat) (vs : List Word) (h : i < vs.length) :
    ∃ vs', removeAt i vs = some vs' ∧ vs'.reverse = without vs.reverse (some (vs.length - 1 - i)) := by
  refine ⟨_, if_pos h, ?_⟩
  rw [List.reverse_append, without, List.take_reverse, List.drop_reverse]
  rw [show vs.length - (vs.length - 1 - i) = i + 1 from by omega,
    show vs.length - (vs.length - 1 - i + 1) = i from by omega]

theorem removeDupsLoop_eq (p : Word) (n : Nat) (vs : List Word) (h : n ≤ vs.length) :
    removeDupsLoop p n vs = some ((vs.take n).filter (fun d => decide (d ≠ p)) ++ vs.drop n) := by
  induction n generalizing vs with
  | zero => simp [removeDupsLoop]
  | succ n ih =>
    have hlt : n < vs.length := h
    have htake : vs.take (n + 1) = vs.take n ++ [vs[n]] := by
      rw [List.take_succ, List.getElem?_eq_getElem hlt]; rfl
    rw [removeDupsLoop, List.getElem?_eq_getElem hlt, htake, List.filter_append]
    simp only
    split
    · rename_i hp
      rw [removeAt, if_pos hlt]
      simp only
      rw [ih _ (by simp; omega), List.take_append_of_le_length (by simp; omega),
        List.drop_append_of_le_length (by simp; omega)]
      rw [List.take_take, Nat.min_self]
      have : vs[n] = p := hp.symm
      simp [this]
    · rename_i hp
      rw [ih _ (by omega)]
      have : vs.drop n = vs[n] :: vs.drop (n + 1) := List.drop_eq_getElem_cons hlt
      have hne : vs[n] ≠ p := fun h => hp h.symm
      have hf : [vs[n]].filter (fun d => decide (d ≠ p)) = [vs[n]] := by
        rw [List.filter_cons_of_pos (by simpa using hne)]
        rfl
      rw [this, hf, List.append_assoc]
      rfl

theorem removeDups_eq (pwd : Option Word) (vs : List Word) :
    removeDups pwd vs = some (vs.filter fun d => decide (some d ≠ pwd)) := by
  cases pwd with
  | none =>
    rw [removeDups, List.filter_eq_self.mpr]
    intro a _
    simp
  | some p => rw [removeDups, removeDupsLoop_eq p _ vs (Nat.le_refl _)]; simp

theorem pushEdit_spec (saved : Word) (k : Option Nat) (dups : Bool) (pwd : Option Word) (vs : List Word)
    (hk : ∀ j, k = some j → j ≤ vs.length) :
    ∃ vs', pushEdit saved (k.map fun j => vs.length - j) dups pwd vs = some vs' ∧
      vs'.reverse = if dups then (without (saved :: vs.reverse) k).filter (fun d => decide (some d ≠ pwd))
        else without (saved :: vs.reverse) k := by
  have hrev : (vs ++ [saved]).reverse = saved :: vs.reverse := by simp
  have key : ∃ vs1, pushIndex saved (k.map fun j => vs.length - j) vs = some vs1 ∧ vs1.reverse = without (saved :: vs.reverse) k := by
    cases k with
    | none => exact ⟨_, rfl, hrev⟩
    | some j =>
      have := hk j rfl
      obtain ⟨vs1, h1, h2⟩ := removeAt_reverse (vs.length - j) (vs ++ [saved]) (by simp; omega)
      refine ⟨vs1, h1, ?_⟩
      rw [h2, hrev]
      congr 2
      simp
      omega
  obtain ⟨vs1, h1, h2⟩ := key
  unfold pushEdit
  simp only [h1]
  cases dups with
  | false => exact ⟨vs1, rfl, h2⟩
  | true =>
    simp only [if_true, removeDups_eq]
    exact ⟨_, rfl, by rw [← List.filter_reverse, h2]⟩

/-! ## `pushd` -/

/-- What `pushd` does: it changes the directory, and if that succeeds and `DIRSTACK` can be changed, the entries
below the new working directory are `es'`, without the new working directory if duplicates are
to be removed. -/
def Pushed {N : Type} (cd : Option (World N × CdResult)) (dups : Bool) (es' : List Word)
    (result : Option (World N × CdResult)) : Prop :=
  match cd with
  | none => result = none
  | some (w1, .failure) => result = some (w1, .failure)
  | some (w1, .success out) =>
    ∃ w' r, result = some (w', r) ∧ w'.cwd = w1.cwd ∧ SameExcept ["DIRSTACK".toList] w1.sh w'.sh ∧
      (Changeable w1.sh → r = .success out ∧ Sane w'.sh ∧ Changeable w'.sh ∧ ∃ ds, Below w'.sh ds ∧ (dups = false → ds = es') ∧
        (dups = true → ∀ p, Value w1.sh "PWD".toList p → ds = es'.filter fun d => decide (d ≠ p))) ∧
      (¬ Changeable w1.sh → r = .failure ∧ w'.sh = w1.sh)

theorem pushTo_spec {N : Type} (seed : Word → Bool) (sys : Sys N) (posix : Bool) (hook : World N → World N)
    (hn : Neutral hook) (w : World N) (hs : Sane w.sh) (logical dups : Bool) (saved dir : Word)
    (isPwd print : Bool) (k : Option Nat) (hk : ∀ j, k = some j → j ≤ ((dirstack w.sh).getD []).length) :
    Pushed (changeDirectoryHook seed sys posix hook w dir isPwd print logical) dups
      (without (saved :: ((dirstack w.sh).getD []).reverse) k)
      (pushTo seed sys posix hook w logical dups saved dir isPwd print
        (k.map fun j => ((dirstack w.sh).getD []).length - j)) := by
  unfold Pushed pushTo
  cases hc : changeDirectoryHook seed sys posix hook w dir isPwd print logical with
  | none => rfl
  | some r =>
    obtain ⟨w1, r⟩ := r
    cases r with
    | failure => rfl
    | success out =>
      simp only
      obtain ⟨hs1, hd1⟩ := cdHook_frame seed sys posix hook hn w w1 _ _ _ _ _ hs hc
      have hds := dirstack_congr _ _ hd1
      obtain ⟨sh2, b, hg, hs2, ho2, hd2, hch, hnot⟩ := getDirstack_spec seed w1.sh hs1
      unfold pushStack
      rw [hg]
      by_cases hcb : Changeable w1.sh
      · obtain ⟨rfl, hc2, vs, hvs⟩ := hch hcb
        rw [hvs, hds, Option.getD_some] at hd2
        have hpw : getvar sh2 pwdName = getvar w1.sh pwdName := by
          apply Option.ext
          intro p
          rw [getvar_value, getvar_value]
          exact value_congr _ _ _ _ (ho2 pwdName (by decide))
        obtain ⟨vs', hpe, hrev⟩ := pushEdit_spec saved k dups (getvar sh2 pwdName) vs (by rw [hd2]; exact hk)
        rw [← hd2]
        obtain ⟨sh3, h3⟩ := editStack_total sh2 true _ vs vs' hvs hpe
        obtain ⟨vs1, vs2, h4, h5, h6, hs3, h7, hc3, _⟩ := editStack_spec sh2 sh3 true _ hs2 h3
        rw [hvs] at h4
        cases h4
        rw [hpe] at h5
        cases h5
        simp only [h3, Option.map_some]
        refine ⟨_, _, rfl, rfl, fun m hm d => (h7 m hm d).trans (ho2 m hm d), fun _ => ⟨rfl, hs3, hc3 hc2, vs'.reverse, ?_, ?_, ?_⟩,
          fun h => absurd hcb h⟩
        · rw [below_iff, h6]; simp
        · rintro rfl; rw [hrev]; rfl
        · rintro rfl p hp
          have hp' : getvar w1.sh pwdName = some p := (getvar_value _ _ _).mpr hp
          rw [hrev, hpw, hp']
          simp
      · obtain ⟨rfl, rfl⟩ := hnot hcb
        exact ⟨_, _, rfl, rfl, fun _ _ _ => rfl, fun h => absurd h hcb, fun _ => ⟨rfl, rfl⟩⟩

/-- **C30.**  `pushd` changes to the directory its operand asks for; then the old working directory and the other
entries are below it, except for the one that an index has designated, which is thus moved to the
top. -/
theorem C30_pushd {N : Type} (seed : Word → Bool) (sys : Sys N) (posix : Bool) (hook : World N → World N)
    (hn : Neutral hook) (w : World N) (hs : Sane w.sh) (logical dups given : Bool) (operand dir : Word)
    (print : Bool) (k : Option Nat) (es : List Word) (he : Entries w.sh es)
    (ho : PushOperand w.sh es given operand dir print k) :
    Pushed (changeDirectoryHook seed sys posix hook w dir (decide (k = some 0)) print logical) dups
      (without es k) (pushd seed sys posix hook w logical dups given operand) := by
  obtain ⟨p, hp, rfl⟩ := entries_split _ _ he
  obtain ⟨hi1, hi2, hi3⟩ := C30_index w.sh _ he operand
  unfold pushd
  simp only [hp]
  cases ho with
  | back d h1 h2 h3 =>
    have h4 : getvar w.sh oldpwdName = some dir := (getvar_value _ _ _).mpr h2
    rw [if_pos (by simp [h1]), h4]
    cases dir with
    | nil => exact absurd rfl h3
    | cons c d =>
      exact pushTo_spec seed sys posix hook hn w hs logical dups p _ _ _ none (fun _ h => by cases h)
  | index s d k h1 h2 =>
    have hne : ¬ (given && decide (operand = ['-'])) = true := by
      intro h
      simp only [Bool.and_eq_true, decide_eq_true_eq] at h
      rw [h.2] at h1
      cases h1 with
      | minus ds n k hn => exact hn.1 rfl
    rw [if_neg hne]
    obtain ⟨d', h3, h4⟩ := hi1 k h1
    rw [h2] at h3
    cases h3
    rw [h4]
    have hk : k ≤ ((dirstack w.sh).getD []).length := by
      rcases Nat.lt_or_ge k (p :: ((dirstack w.sh).getD []).reverse).length with h | h
      · simp at h; omega
      · rw [List.getElem?_eq_none h] at h2; cases h2
    have := pushTo_spec seed sys posix hook hn w hs logical dups p dir (decide (k = 0)) false (some k)
      (fun j hj => by cases hj; exact hk)
    simpa using this
  | directory s h1 h2 =>
    have hne : ¬ (given && decide (operand = ['-'])) = true := by
      intro h
      simp only [Bool.and_eq_true, decide_eq_true_eq] at h
      exact h2 ⟨h.1, h.2⟩
    rw [if_neg hne, hi3 h1]
    exact pushTo_spec seed sys posix hook hn w hs logical dups p _ _ _ none (fun _ h => by cases h)

/-- **C30.**  If the operand asks for nothing, or there is no working directory, `pushd` fails and changes
nothing. -/
theorem C30_pushd_refused {N : Type} (seed : Word → Bool) (sys : Sys N) (posix : Bool)
    (hook : World N → World N) (w : World N) (logical dups given : Bool) (operand : Word)
    (h : ∀ es, Entries w.sh es → ∀ dir print k, ¬ PushOperand w.sh es given operand dir print k) :
    pushd seed sys posix hook w logical dups given operand = some (w, .failure) := by
  unfold pushd
  cases hp : getvar w.sh pwdName with
  | none => rfl
  | some p =>
    have he : Entries w.sh (p :: ((dirstack w.sh).getD []).reverse) :=
      ⟨p, _, (getvar_value _ _ _).mp hp, (below_iff _ _).mpr (by simp), rfl⟩
    have h := h _ he
    simp only
    split
    · rename_i hc
      simp only [Bool.and_eq_true, decide_eq_true_eq] at hc
      obtain ⟨h1, rfl⟩ := hc
      split
      · rfl
      · rfl
      · rename_i d h2 h3
        exact absurd (.back d h1 ((getvar_value _ _ _).mp h3) (by rintro rfl; exact h2 rfl)) (h _ _ _)
    · rename_i hc
      simp only [Bool.and_eq_true, decide_eq_true_eq] at hc
      obtain ⟨hi1, hi2, hi3⟩ := C30_index w.sh _ he operand
      by_cases hx : IndexText operand
      · rw [hi2 hx (fun k hk => by
          obtain ⟨d, h1, _⟩ := hi1 k hk
          exact h _ _ _ (.index operand d k hk h1))]
      · exact absurd (.directory operand hx hc) (h _ _ _)

/-! ## `popd` -/

/-- The word that designates the entry to be removed. -/
def popWord : List Word → Option Word
  | [] => some "+0".toList
  | [s] => some s
  | _ => none

theorem entries_after (sh sh' : Shell) (es : List Word) (he : Entries sh es)
    (ho : SameExcept ["DIRSTACK".toList] sh sh') (hd : (dirstack sh').getD [] = (dirstack sh).getD []) :
    Entries sh' es := by
  obtain ⟨p, ds, h1, h2, rfl⟩ := he
  rw [below_iff] at h2
  exact ⟨p, ds, (value_congr _ _ _ _ (ho _ (by decide))).mpr h1, (below_iff _ _).mpr (hd.trans h2), rfl⟩

/-- **C30.**  `popd` removes exactly the designated entry.  If that is the working directory, the next entry is
removed from the list and becomes the working directory. -/
theorem C30_popd {N : Type} (seed : Word → Bool) (sys : Sys N) (posix : Bool) (hook : World N → World N)
    (hn : Neutral hook) (w : World N) (hs : Sane w.sh) (operands : List Word) (s : Word) (k : Nat)
    (es : List Word) (he : Entries w.sh es) (hlen : 2 ≤ es.length) (hc : Changeable w.sh)
    (hw : popWord operands = some s) (hk : Designates es s k) :
    (k ≠ 0 → ∃ w', popd seed sys posix hook w operands = some (w', .success none) ∧ w'.cwd = w.cwd ∧
      SameExcept ["DIRSTACK".toList] w.sh w'.sh ∧ Entries w'.sh (without es (some k))) ∧
    (k = 0 → ∃ w0 top, es[1]? = some top ∧ Sane w0.sh ∧ w0.cwd = w.cwd ∧ SameExcept ["DIRSTACK".toList] w.sh w0.sh ∧
      Below w0.sh (es.drop 2) ∧
      (changeDirectoryHook seed sys posix hook w0 top false true true = none →
        popd seed sys posix hook w operands = none) ∧
      ∀ w1 r, changeDirectoryHook seed sys posix hook w0 top false true true = some (w1, r) →
        ∃ w', popd seed sys posix hook w operands = some (w', r) ∧ w'.cwd = w1.cwd ∧
          (∀ m d, varAt w'.sh d m = varAt w1.sh d m) ∧ Below w'.sh (es.drop 2)) := by
  obtain ⟨sh1, b, hg, hs1, ho1, hd1, hch, _⟩ := getDirstack_spec seed w.sh hs
  obtain ⟨rfl, hc1, vs, hvs⟩ := hch hc
  have he1 := entries_after _ _ es he ho1 hd1
  obtain ⟨p, hp, hes⟩ := entries_split _ _ he1
  rw [hvs, Option.getD_some] at hes
  obtain ⟨d, hd, hpi⟩ := (C30_index sh1 es he1 s).1 k hk
  have hvlen : es.length = vs.length + 1 := by rw [hes]; simp
  have hklen : k < es.length := by
    rcases Nat.lt_or_ge k es.length with h | h
    · exact h
    · rw [List.getElem?_eq_none h] at hd; cases hd
  have hlast : vs.getLast? = es[1]? := by
    rw [hes, List.getElem?_cons_succ, List.getLast?_eq_head?_reverse, List.head?_eq_getElem?]
  have hpop : ∀ top, vs.getLast? = some top → popd seed sys posix hook w operands =
      if es.length - 1 - k < vs.length then
        (editStack sh1 true (removeAt (es.length - 1 - k))).map fun sh => (⟨sh, w.cwd⟩, .success none)
      else popTop seed sys posix hook ⟨sh1, w.cwd⟩ top := by
    intro top htop
    unfold popd
    match operands, hw with
    | [], hw => cases hw; simp only [hg, hvs, htop, show (['+', '0'] : Word) = "+0".toList from rfl, hpi]
    | [x], hw => cases hw; simp only [hg, hvs, htop, hpi]
    | _ :: _ :: _, hw => cases hw
  obtain ⟨top, htop⟩ : ∃ top, vs.getLast? = some top := by
    rw [hlast, List.getElem?_eq_getElem (by omega)]; exact ⟨_, rfl⟩
  rw [hpop top htop]
  constructor
  · intro h0
    rw [if_pos (by omega)]
    obtain ⟨vs', h1, h2⟩ := removeAt_reverse (es.length - 1 - k) vs (by omega)
    obtain ⟨sh2, h3⟩ := editStack_total sh1 true _ vs vs' hvs h1
    obtain ⟨_, _, h4, h5, h6, _, h7, _⟩ := editStack_spec sh1 sh2 true _ hs1 h3
    rw [hvs] at h4
    cases h4
    rw [h1] at h5
    cases h5
    refine ⟨⟨sh2, w.cwd⟩, by rw [h3]; rfl, rfl, fun m hm d => (h7 m hm d).trans (ho1 m hm d), ?_⟩
    refine ⟨p, vs'.reverse, ?_, (below_iff _ _).mpr (by rw [h6]; simp), ?_⟩
    · rw [value_congr _ _ _ _ (h7 "PWD".toList (by decide))]
      exact (getvar_value _ _ _).mp hp
    · rw [h2, hes]
      obtain ⟨j, rfl⟩ : ∃ j, k = j + 1 := ⟨k - 1, by omega⟩
      simp only [without, List.length_cons, List.length_reverse, List.take_succ_cons, List.drop_succ_cons,
        List.cons_append, List.cons.injEq, true_and]
      rw [hes, List.length_cons, List.length_reverse] at hklen
      rw [show vs.length - 1 - (vs.length + 1 - 1 - (j + 1)) = j from by omega]
  · rintro rfl
    rw [if_neg (by omega)]
    unfold popTop
    obtain ⟨sh2, h3⟩ := editStack_total sh1 false (fun vs => some vs.dropLast) vs vs.dropLast hvs rfl
    obtain ⟨_, _, h4, h5, h6, hs2, h7, hc2, _⟩ := editStack_spec sh1 sh2 false _ hs1 h3
    rw [hvs] at h4
    cases h4
    cases h5
    have hdrop : (es.drop 2).reverse = vs.dropLast := by
      rw [hes, List.drop_succ_cons, List.drop_reverse, List.reverse_reverse, List.dropLast_eq_take]
    refine ⟨⟨sh2, w.cwd⟩, top, by rw [← hlast, htop], hs2, rfl, fun m hm d => (h7 m hm d).trans (ho1 m hm d),
      (below_iff _ _).mpr (by rw [h6, hdrop]; rfl), ?_, ?_⟩
    · intro hcd
      simp only [h3, hcd]
    · intro w1 r hcd
      obtain ⟨hs3, hd3⟩ := cdHook_frame seed sys posix hook hn _ _ _ _ _ _ _ hs2 hcd
      have hds := dirstack_congr _ _ hd3
      simp only at hds
      rw [h6] at hds
      obtain ⟨sh4, h8⟩ := editStack_total w1.sh true some _ _ hds rfl
      obtain ⟨_, _, h9, h10, h11, _, _, _, h12⟩ := editStack_spec w1.sh sh4 true _ hs3 h8
      cases h10
      rw [hds] at h9
      cases h9
      simp only [h3, hcd, h8, Option.map_some]
      exact ⟨_, rfl, rfl, h12 rfl, (below_iff _ _).mpr (by rw [h11, hdrop]; rfl)⟩

/-- **C30.**  In all other cases `popd` fails, and the working directory, the stack and the other variables
stay as they are. -/
theorem C30_popd_refused {N : Type} (seed : Word → Bool) (sys : Sys N) (posix : Bool)
    (hook : World N → World N) (w : World N) (hs : Sane w.sh) (operands : List Word)
    (es : List Word) (he : Entries w.sh es)
    (h : ¬ (2 ≤ es.length ∧ Changeable w.sh ∧ ∃ s k, popWord operands = some s ∧ Designates es s k)) :
    ∃ w', popd seed sys posix hook w operands = some (w', .failure) ∧ w'.cwd = w.cwd ∧
      SameExcept ["DIRSTACK".toList] w.sh w'.sh ∧ Entries w'.sh es := by
  obtain ⟨sh1, b, hg, hs1, ho1, hd1, hch, hnot⟩ := getDirstack_spec seed w.sh hs
  have he1 := entries_after _ _ es he ho1 hd1
  have hop : popWord operands = none → ∃ w', popd seed sys posix hook w operands = some (w', .failure) ∧
      w'.cwd = w.cwd ∧ SameExcept ["DIRSTACK".toList] w.sh w'.sh ∧ Entries w'.sh es := by
    intro h1
    match operands, h1 with
    | a :: b :: c, _ => exact ⟨w, rfl, rfl, fun _ _ _ => rfl, he⟩
  cases hw : popWord operands with
  | none => exact hop hw
  | some s =>
    refine ⟨⟨sh1, w.cwd⟩, ?_, rfl, ho1, he1⟩
    have hstart : popd seed sys posix hook w operands =
        match (some (sh1, b) : Option (Shell × Bool)) with
        | none => none
        | some (sh, false) => some (⟨sh, w.cwd⟩, .failure)
        | some (sh, true) =>
          match dirstack sh with
          | none => none
          | some vs =>
            match vs.getLast? with
            | none => some (⟨sh, w.cwd⟩, .failure)
            | some top =>
              match parseIndex sh s with
              | none => none
              | some .error => some (⟨sh, w.cwd⟩, .failure)
              | some .notIndex => some (⟨sh, w.cwd⟩, .failure)
              | some (.entry i _ _) =>
                if i < vs.length then
                  (editStack sh true (removeAt i)).map fun sh => (⟨sh, w.cwd⟩, .success none)
                else popTop seed sys posix hook ⟨sh, w.cwd⟩ top := by
      rw [← hg]
      match operands, hw with
      | [], hw => cases hw; rfl
      | [x], hw => cases hw; rfl
      | _ :: _ :: _, hw => cases hw
    rw [hstart]
    by_cases hc : Changeable w.sh
    · obtain ⟨rfl, hc1, vs, hvs⟩ := hch hc
      obtain ⟨p, hp, hes⟩ := entries_split _ _ he1
      rw [hvs, Option.getD_some] at hes
      simp only [hvs]
      cases htop : vs.getLast? with
      | none => rfl
      | some top =>
        have hne : vs ≠ [] := by rintro rfl; cases htop
        have hlen : 2 ≤ es.length := by
          cases vs with
          | nil => exact absurd rfl hne
          | cons => rw [hes]; simp
        obtain ⟨hi1, hi2, hi3⟩ := C30_index sh1 es he1 s
        have hno : ∀ k, ¬ Designates es s k := fun k hk => h ⟨hlen, hc, s, k, hw, hk⟩
        by_cases hx : IndexText s
        · simp only [hi2 hx hno]
        · simp only [hi3 hx]
    · obtain ⟨rfl, rfl⟩ := hnot hc
      rfl

/-! ## `dirs` -/

theorem dirsLoop_eq (size : Nat) (vs : List Word) (n : Nat) (h : n ≤ vs.length) :
    ∃ ls, dirsLoop size vs n = some ls ∧ ls.length = n ∧
      ∀ i, i < n → ls[i]? = (vs[n - 1 - i]?).map fun d => ⟨size - (n - 1 - i), n - 1 - i, d⟩ := by
  induction n with
  | zero => exact ⟨[], rfl, rfl, fun i hi => absurd hi (by omega)⟩
  | succ n ih =>
    obtain ⟨ls, h1, h2, h3⟩ := ih (by omega)
    refine ⟨⟨size - n, n, vs[n]⟩ :: ls, ?_, by simp [h2], ?_⟩
    · rw [dirsLoop, h1, List.getElem?_eq_getElem (by omega)]
    · intro i hi
      cases i with
      | zero => simp [List.getElem?_eq_getElem (show n < vs.length by omega)]
      | succ i =>
        rw [List.getElem?_cons_succ, h3 i (by omega), show n + 1 - 1 - (i + 1) = n - 1 - i from by omega]

/-- **C30.**  `dirs` prints all entries from the top to the bottom, with their numbers from the top and from the
bottom. -/
theorem C30_dirs (sh : Shell) (es : List Word) (he : Entries sh es) :
    ∃ ls : List DirsLine, dirs sh false [] = some (sh, ls, true) ∧ ls.length = es.length ∧
      ∀ (i : Nat) d, es[i]? = some d → ls[i]? = some ⟨i, es.length - 1 - i, d⟩ := by
  obtain ⟨p, hp, rfl⟩ := entries_split _ _ he
  generalize hvs : (dirstack sh).getD [] = vs
  obtain ⟨ls, h1, h2, h3⟩ := dirsLoop_eq vs.length vs vs.length (Nat.le_refl _)
  refine ⟨⟨0, vs.length, p⟩ :: ls, ?_, by simp [h2], ?_⟩
  · simp only [dirs, dirsAll, hp, hvs, h1, List.isEmpty_nil, if_true, Bool.false_eq_true, if_false, Option.map_some]
  · intro i d hi
    cases i with
    | zero => simp at hi; simp [hi]
    | succ i =>
      rw [List.getElem?_cons_succ] at hi ⊢
      have hlt : i < vs.length := by
        rcases Nat.lt_or_ge i vs.reverse.length with h | h
        · simpa using h
        · rw [List.getElem?_eq_none h] at hi; cases hi
      rw [List.getElem?_reverse hlt] at hi
      rw [h3 i hlt, hi]
      simp
      omega

/-- **C30.**  `dirs` with operands prints the designated entries in the order of the operands, and succeeds if
all operands designate entries. -/
theorem C30_dirs_operands (sh : Shell) (es : List Word) (he : Entries sh es) (operands : List Word)
    (hne : operands ≠ []) :
    ∃ (ls : List DirsLine) (ok : Bool), dirs sh false operands = some (sh, ls, ok) ∧
      (ok = true ↔ ∀ s ∈ operands, ∃ k, Designates es s k) ∧
      (ok = true → ls.length = operands.length ∧ ∀ (i : Nat) s k, operands[i]? = some s → Designates es s k →
        ∃ d, es[k]? = some d ∧ ls[i]? = some ⟨k, es.length - 1 - k, d⟩) := by
  obtain ⟨p, hp, hes⟩ := entries_split _ _ he
  have hlen : es.length = ((dirstack sh).getD []).length + 1 := by rw [hes]; simp
  have key : ∀ ss : List Word, ∃ (ls : List DirsLine) (ok : Bool), dirsOperands sh ss = some (ls, ok) ∧
      (ok = true ↔ ∀ s ∈ ss, ∃ k, Designates es s k) ∧
      (ok = true → ls.length = ss.length ∧ ∀ (i : Nat) s k, ss[i]? = some s → Designates es s k →
        ∃ d, es[k]? = some d ∧ ls[i]? = some ⟨k, es.length - 1 - k, d⟩) := by
    intro ss
    induction ss with
    | nil => exact ⟨[], true, rfl, by simp, fun _ => ⟨rfl, fun i s k h => by simp at h⟩⟩
    | cons s ss ih =>
      obtain ⟨ls, ok, h1, h2, h3⟩ := ih
      obtain ⟨hi1, hi2, hi3⟩ := C30_index sh es he s
      by_cases hd : ∃ k, Designates es s k
      · obtain ⟨k, hk⟩ := hd
        obtain ⟨d, hd, hpi⟩ := hi1 k hk
        have hklen : k < es.length := by
          rcases Nat.lt_or_ge k es.length with h | h
          · exact h
          · rw [List.getElem?_eq_none h] at hd; cases hd
        refine ⟨_, ok, by rw [dirsOperands, hpi, h1], ?_, fun hok => ?_⟩
        · rw [h2]
          simp only [List.mem_cons, forall_eq_or_imp]
          exact ⟨fun h => ⟨⟨k, hk⟩, h⟩, fun h => h.2⟩
        · obtain ⟨h4, h5⟩ := h3 hok
          refine ⟨by simp [h4], fun i s' k' hi hk' => ?_⟩
          cases i with
          | zero =>
            simp only [List.getElem?_cons_zero, Option.some.injEq] at hi
            subst hi
            obtain ⟨d', hd', hpi'⟩ := hi1 k' hk'
            rw [hpi] at hpi'
            have hk'len : k' < es.length := by
              rcases Nat.lt_or_ge k' es.length with h | h
              · exact h
              · rw [List.getElem?_eq_none h] at hd'; cases hd'
            simp only [Option.some.injEq, Index.entry.injEq] at hpi'
            have : k = k' := by omega
            subst this
            refine ⟨d, hd, ?_⟩
            rw [List.getElem?_cons_zero, show ((dirstack sh).getD []).length - (es.length - 1 - k) = k from by omega]
          | succ i => exact h5 i s' k' hi hk'
      · have hpi : ∃ r, parseIndex sh s = some r ∧ ∀ i d b, r ≠ .entry i d b := by
          by_cases hx : IndexText s
          · exact ⟨_, hi2 hx (fun k hk => hd ⟨k, hk⟩), fun _ _ _ h => by cases h⟩
          · exact ⟨_, hi3 hx, fun _ _ _ h => by cases h⟩
        obtain ⟨r, hpi, hr⟩ := hpi
        refine ⟨ls, false, ?_, ?_, fun h => by cases h⟩
        · rw [dirsOperands, hpi, h1]
          cases r with
          | error => rfl
          | notIndex => rfl
          | entry i d b => exact absurd rfl (hr i d b)
        · constructor
          · intro h; cases h
          · intro h; exact absurd (h s (by simp)) hd
  obtain ⟨ls, ok, h1, h2, h3⟩ := key operands
  refine ⟨ls, ok, ?_, h2, h3⟩
  cases operands with
  | nil => exact absurd rfl hne
  | cons s ss => simp only [dirs, List.isEmpty_cons, Bool.false_eq_true, if_false, h1]

/-- **C30.**  The numbers that `dirs -v` prints designate the directories that it prints. -/
theorem C30_dirs_numbers (sh : Shell) (es : List Word) (he : Entries sh es) (ls : List DirsLine) (ok : Bool)
    (h : dirs sh false [] = some (sh, ls, ok)) (hsize : es.length ≤ 9223372036854775807) (l : DirsLine)
    (hl : l ∈ ls) :
    ∃ k plus minus, es[k]? = some l.dir ∧ Designates es plus k ∧ Designates es minus k ∧
      l.text true = plus ++ '\t' :: minus ++ '\t' :: l.dir ++ ['\n'] := by
  have hnum : ∀ n, Numeral (Nat.toDigits 10 n) n := by
    intro n
    obtain ⟨h1, h2, h3⟩ := Getopts.toDigits_scan n
    refine ⟨h3, fun c hc => ?_, h2.symm⟩
    rw [← digit_iff]
    simp [h1 c hc]
  obtain ⟨ls', h1, h2, h3⟩ := C30_dirs sh es he
  rw [h] at h1
  cases h1
  obtain ⟨k, hk, hk2⟩ := List.getElem_of_mem hl
  have hget : es[k]? = some es[k] := List.getElem?_eq_getElem (by omega)
  have := h3 k _ hget
  rw [List.getElem?_eq_getElem hk, hk2, Option.some.injEq] at this
  subst this
  exact ⟨k, _, _, hget, .plus _ k (hnum k) (by omega) (by omega),
    .minus _ (es.length - 1 - k) k (hnum _) (by omega) (by omega), rfl⟩

/-- **C30.**  `dirs -c` empties the stack if `DIRSTACK` is not read-only and is not defined more than once. -/
theorem C30_clear (sh : Shell) (d : Nat) (v : Variable.Var) (hv : Visible sh "DIRSTACK".toList d v)
    (hn : v.nodelete = false) (hone : ∀ e, e ≠ d → varAt sh e "DIRSTACK".toList = none) (operands : List Word) :
    ∃ sh', dirs sh true operands = some (sh', [], true) ∧ Below sh' [] ∧ SameExcept ["DIRSTACK".toList] sh sh' := by
  obtain ⟨hd, hl⟩ := Variable.visible_locate _ _ _ _ hv
  have hl : locate sh.scopes dirstackName = _ := hl
  refine ⟨Variable.dropVar sh (sh.scopes.length - 1 - d) dirstackName v, ?_, ?_, ?_⟩
  · simp only [dirs, if_true, unsetVariable, hl, hn, Bool.false_eq_true, if_false]
  · rw [below_iff]
    have : locate (Variable.dropVar sh (sh.scopes.length - 1 - d) dirstackName v).scopes dirstackName = none := by
      rw [Variable.locate_none, Variable.dropVar_column]
      intro o ho
      obtain ⟨i, hi⟩ := List.mem_iff_getElem?.mp ho
      by_cases hid : sh.scopes.length - 1 - d = i
      · subst hid
        rw [List.getElem?_set_self'] at hi
        rw [Option.map_eq_map, Option.map_eq_some_iff] at hi
        obtain ⟨_, _, h⟩ := hi
        exact h.symm
      · rw [List.getElem?_set_ne hid] at hi
        have hlt : i < sh.scopes.length := by
          rcases Nat.lt_or_ge i (Variable.column dirstackName sh.scopes).length with h | h
          · rwa [Variable.column_length] at h
          · rw [List.getElem?_eq_none h] at hi; cases hi
        rw [Variable.index_varAt sh i dirstackName hlt] at hi
        have := hone (sh.scopes.length - 1 - i) (by omega)
        rw [show varAt sh (sh.scopes.length - 1 - i) dirstackName = none from this] at hi
        cases hi
        rfl
    simp only [dirstack, this]
    rfl
  · intro m hm e
    apply Variable.varAt_congr
    exact Variable.dropVar_column_other _ _ _ _ _ (fun h => hm (List.mem_singleton.mpr h))

/-! ## Back again -/

/-- A path with single slashes and without dot and dot-dot components, as `cd` makes it. -/
def Plain (p : Word) : Prop :=
  p.head? = some '/' ∧ p = render (root p) (comps p) ∧ dot ∉ comps p ∧ dotdot ∉ comps p

theorem steps_plain (a b : List Comp) (h : Steps a b) (h1 : dot ∉ a) (h2 : dotdot ∉ a) : b = a := by
  induction h with
  | refl => rfl
  | step b c _ hs ih =>
    have := ih
    subst this
    cases hs with
    | dot x y => exact absurd (by simp) h1
    | dotdot x y z => exact absurd (by simp) h2

theorem root_absolute (p : Word) (h : p.head? = some '/') : root p = ['/'] ∨ root p = ['/', '/'] := by
  unfold root
  split
  · exact Or.inl rfl
  · exact Or.inr rfl
  · exact Or.inl rfl
  · rename_i h1 h2 h3
    cases p with
    | nil => cases h
    | cons c p =>
      simp only [List.head?_cons, Option.some.injEq] at h
      subst h
      exact absurd rfl (h3 p)

/-- An absolute path denotes the same directory everywhere. -/
theorem denotes_same {N : Type} (fs : FileSystem N) (sys : Sys N) (ht : Truthful fs sys) (a b m n : N) (p : Word)
    (h : p.head? = some '/') (h1 : Denotes fs a p m) (h2 : Denotes fs b p n) : m = n := by
  have hs : ∃ r, fs.start (root p) = some r := by
    rcases root_absolute p h with h | h
    · rw [h]; exact Option.ne_none_iff_exists'.mp ht.roots.1
    · rw [h]; exact Option.ne_none_iff_exists'.mp ht.roots.2
  obtain ⟨r, hr⟩ := hs
  have h3 := h1.2.2.2
  have h4 := h2.2.2.2
  rw [hr, Option.getD_some] at h3 h4
  rw [h3] at h4
  cases h4
  rfl

/-- `cd` to a plain path sets `PWD` to that path. -/
theorem cd_plain {N : Type} (fs : FileSystem N) (sys : Sys N) (ht : Truthful fs sys) (seed : Word → Bool)
    (posix : Bool) (w w' : World N) (p : Word) (samePwd print : Bool) (out : Option Word)
    (hs : Sane w.sh) (hw : Writable w.sh "PWD".toList) (hn : NotWrong fs w) (hp : Plain p)
    (h : changeDirectory seed sys posix w p samePwd print true = some (w', .success out)) :
    Value w'.sh "PWD".toList p ∧ Denotes fs w'.cwd p w'.cwd := by
  obtain ⟨q, hq, hplace, _⟩ := C42_place fs sys ht seed posix w w' p samePwd print true out hs hw hn h
  have hqp : q = p := hq.1 (Or.inr (Or.inl hp.1))
  subst hqp
  obtain ⟨orig, new, k, _, hv, hsimp, hren, _⟩ := hplace rfl
  rw [joined, if_pos hp.1] at hsimp
  rw [if_pos hp.1] at hren
  have heq := steps_plain _ _ hsimp.1 hp.2.2.1 hp.2.2.2
  have hk : k = 0 := by
    cases k with
    | zero => rfl
    | succ k => exact absurd (by rw [← heq]; simp [List.replicate_succ]) hp.2.2.2
  subst hk
  rw [List.replicate_zero, List.nil_append] at heq
  rw [heq, ← hp.2.1] at hren
  subst hren
  refine ⟨hv, ?_⟩
  obtain ⟨p', h1, _, h3⟩ := C42_named fs sys ht seed posix w w' new samePwd print true out hs hw hn h
    (fun h => by cases h)
  rw [value_unique _ _ _ _ hv h1]
  exact h3

/-- **C30.**  `pushd directory` and then `popd` lead back to where one was, with the same stack. -/
theorem C30_roundtrip {N : Type} (fs : FileSystem N) (sys : Sys N) (ht : Truthful fs sys) (seed : Word → Bool)
    (posix logical given : Bool) (w w1 w2 : World N) (operand dir : Word) (print : Bool) (out out' : Option Word)
    (p : Word) (ds : List Word) (hs : Sane w.sh) (hw : Writable w.sh "PWD".toList)
    (he : Entries w.sh (p :: ds)) (hp : Plain p) (hd : Denotes fs w.cwd p w.cwd) (hc : Changeable w.sh)
    (ho : PushOperand w.sh (p :: ds) given operand dir print none)
    (h1 : pushd seed sys posix id w logical false given operand = some (w1, .success out))
    (hg : logical = false → sys.getcwd w1.cwd ≠ none)
    (h2 : popd seed sys posix id w1 [] = some (w2, .success out')) :
    w2.cwd = w.cwd ∧ Entries w2.sh (p :: ds) := by
  have hneutral : Neutral (id : World N → World N) := fun w hs => ⟨hs, fun _ => rfl⟩
  have hpv : Value w.sh "PWD".toList p := by
    obtain ⟨q, ds', h3, _, h5⟩ := he
    cases h5
    exact h3
  have hnamed : Named fs w := ⟨p, hpv, hp.1, hd⟩
  have hhook : ∀ (w : World N) dir same print logical,
      changeDirectoryHook seed sys posix id w dir same print logical =
        changeDirectory seed sys posix w dir same print logical := by
    intro w dir same print logical
    unfold changeDirectoryHook
    cases changeDirectory seed sys posix w dir same print logical with
    | none => rfl
    | some r =>
      obtain ⟨w, r⟩ := r
      cases r <;> simp
  have hpush := C30_pushd seed sys posix id hneutral w hs logical false given operand dir print none _ he ho
  rw [h1, hhook] at hpush
  unfold Pushed at hpush
  split at hpush
  · cases hpush
  · cases hpush
  · rename_i w1' out1 hcd
    obtain ⟨w', r, h3, hcwd, hsame, hch, _⟩ := hpush
    cases h3
    have hfr := cd_frame seed sys posix w w1' _ _ _ _ _ hs hcd
    have hc1 : Changeable w1'.sh := (changeable_congr _ _ (hfr.other _ (by decide))).mpr hc
    obtain ⟨hr, hs1, hc1, ds', hb, hds, _⟩ := hch hc1
    cases hr
    have hds := hds rfl
    subst hds
    obtain ⟨hs1', hw1', hn1'⟩ := cd_invariant fs sys ht seed posix w w1' dir _ print logical _ hs hw hnamed
      (fun h => by rw [← hcwd]; exact hg h) hcd
    -- the state after `pushd`
    have hn1 : Named fs w1 := by
      obtain ⟨q, h4, h5, h6⟩ := hn1'
      exact ⟨q, (value_congr _ _ _ _ (hsame _ (by decide))).mpr h4, h5, by rw [hcwd]; exact h6⟩
    have hw1 : Writable w1.sh "PWD".toList := writable_congr _ _ _ (hsame _ (by decide)) hw1'
    obtain ⟨q, hq, hq2⟩ := id hn1
    have he1 : Entries w1.sh (q :: p :: ds) := ⟨q, p :: ds, hq, hb, rfl⟩
    have hz : Designates (q :: p :: ds) "+0".toList 0 :=
      .plus _ 0 ⟨by decide, by decide, by decide⟩ (by omega) (by simp)
    obtain ⟨w0, top, htop, hs0, hcwd0, hsame0, hb0, hno, hyes⟩ :=
      (C30_popd seed sys posix id hneutral w1 hs1 [] _ 0 _ he1 (by simp) hc1 rfl hz).2 rfl
    cases htop
    rw [hhook] at hno
    simp only [hhook] at hyes
    cases hcd2 : changeDirectory seed sys posix w0 p false true true with
    | none => rw [hno hcd2] at h2; cases h2
    | some r =>
      obtain ⟨w3, r⟩ := r
      obtain ⟨w2', h7, h8, h9, h10⟩ := hyes w3 r hcd2
      rw [h2] at h7
      cases h7
      have hn0 : Named fs w0 := by
        obtain ⟨q, h4, h5, h6⟩ := hn1
        exact ⟨q, (value_congr _ _ _ _ (hsame0 _ (by decide))).mpr h4, h5, by rw [hcwd0]; exact h6⟩
      obtain ⟨hv, hden⟩ := cd_plain fs sys ht seed posix w0 w3 p false true out' hs0
        (writable_congr _ _ _ (hsame0 _ (by decide)) hw1) (Or.inl hn0) hp hcd2
      refine ⟨?_, p, ds, (value_congr _ _ _ _ (h9 _)).mpr hv, h10, rfl⟩
      rw [h8]
      exact denotes_same fs sys ht _ _ _ _ p hp.1 hden hd

/-! ## Scripts that change the stack -/

/-- A shell in `/a` with `DIRSTACK=(/ /l)`. -/
def exampleStack : Option Shell :=
  (setVariable (fun _ => false) (Variable.initEnvironment [("PWD".toList, "/a".toList)]) dirstackName
    (.array ["/".toList, "/l".toList]) .global false).map (·.1)

/-- **C30.**  A script in `YASH_AFTER_CD` must not change `DIRSTACK`: if it removes the variable, `pushd +1`
removes an element of the new array at a place where it has none. -/
theorem C30_hook_violates :
    ∃ (sh : Shell) (hook : World (Fin 3) → World (Fin 3)), Sane sh ∧
      (∀ w, Sane w.sh → Sane (hook w).sh) ∧
      changeDirectoryHook (fun _ => false) exampleSys false hook ⟨sh, 1⟩ "/l".toList false false true ≠ none ∧
      pushd (fun _ => false) exampleSys false hook ⟨sh, 1⟩ true false true "+1".toList = none := by
  obtain ⟨sh, hsh⟩ : ∃ sh, exampleStack = some sh := ⟨_, rfl⟩
  refine ⟨exampleStack.getD (Variable.initEnvironment []),
    fun w => ⟨(unsetVariable w.sh dirstackName).1, w.cwd⟩, ?_, ?_, by decide +kernel, by decide +kernel⟩
  · apply Variable.C25_sane (fun _ => false) (fun _ _ => True)
    refine .step _ _ (.assign dirstackName (.array ["/".toList, "/l".toList]) .global false) true
      (.start [("PWD".toList, "/a".toList)] (by decide)) trivial ?_
    rfl
  · intro w hs
    rw [Variable.sane_iff] at hs ⊢
    exact Variable.step_sane (fun _ => false) _ _ (.unset dirstackName) (unsetVariable w.sh dirstackName).2 hs rfl

/-! ## Examples -/

def exampleWorld : World (Fin 3) := ⟨exampleStack.getD (Variable.initEnvironment []), 1⟩

def exampleText (w : World (Fin 3)) : Fin 3 × Option Word × Option (List Word) :=
  (w.cwd, getvar w.sh pwdName, dirstack w.sh)

set_option synthInstance.maxSize 1000 in
/-- The stack is `/a /l /`: `pushd +1`, `pushd -0`, `pushd b`, `pushd -D /`, `popd`, `popd +2` and `dirs -v`. -/
example :
    ((pushd (fun _ => false) exampleSys false id exampleWorld true false true "+1".toList).map fun r =>
      (exampleText r.1, r.2)) = some ((2, some "/l".toList, some ["/".toList, "/a".toList]), .success none) ∧
    ((pushd (fun _ => false) exampleSys false id exampleWorld true false true "-0".toList).map fun r =>
      (exampleText r.1, r.2)) = some ((0, some "/".toList, some ["/l".toList, "/a".toList]), .success none) ∧
    ((pushd (fun _ => false) exampleSys false id exampleWorld true false true "b".toList).map fun r =>
      (exampleText r.1, r.2)) =
        some ((2, some "/a/b".toList, some ["/".toList, "/l".toList, "/a".toList]), .success none) ∧
    ((pushd (fun _ => false) exampleSys false id exampleWorld true true true "/".toList).map fun r =>
      (exampleText r.1, r.2)) = some ((0, some "/".toList, some ["/l".toList, "/a".toList]), .success none) ∧
    ((popd (fun _ => false) exampleSys false id exampleWorld []).map fun r =>
      (exampleText r.1, r.2)) = some ((2, some "/l".toList, some ["/".toList]), .success (some "/l".toList)) ∧
    ((popd (fun _ => false) exampleSys false id exampleWorld ["+2".toList]).map fun r =>
      (exampleText r.1, r.2)) = some ((1, some "/a".toList, some ["/l".toList]), .success none) ∧
    ((dirs exampleWorld.sh false []).map fun r => (r.2.1.map fun l => String.ofList (l.text true), r.2.2)) =
      some (["+0\t-2\t/a\n", "+1\t-1\t/l\n", "+2\t-0\t/\n"], true) := by
  refine ⟨by decide +kernel, by decide +kernel, by decide +kernel, by decide +kernel, by decide +kernel,
    by decide +kernel, by decide +kernel⟩

/-- The hypotheses of `C30_roundtrip` are met by `pushd b; popd`. -/
example : Plain "/a".toList ∧ Denotes exampleFiles 1 "/a".toList 1 ∧
    (∃ w1 out w2 out',
      pushd (fun _ => false) exampleSys false id exampleWorld true false true "b".toList = some (w1, .success out) ∧
      popd (fun _ => false) exampleSys false id w1 [] = some (w2, .success out')) := by
  refine ⟨⟨rfl, by decide, by decide, by decide⟩, ⟨by decide, by decide, rfl, by decide⟩, ?_⟩
  have h : ((pushd (fun _ => false) exampleSys false id exampleWorld true false true "b".toList).bind fun r =>
      if r.2 = .failure then none else popd (fun _ => false) exampleSys false id r.1 []).map (·.2) =
        some (.success (some "/a".toList)) := by decide +kernel
  rw [Option.map_eq_some_iff] at h
  obtain ⟨⟨w2, r2⟩, h, h3⟩ := h
  rw [Option.bind_eq_some_iff] at h
  obtain ⟨⟨w1, r1⟩, h1, h2⟩ := h
  cases r1 with
  | failure => cases h2
  | success out => exact ⟨w1, out, w2, _, h1, by rw [← show r2 = _ from h3]; simpa using h2⟩

end Yash.Path
