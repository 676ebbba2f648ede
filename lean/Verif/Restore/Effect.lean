import Verif.Restore.Spec
import Verif.Variable.Props
/-! # What one line of a listing does to the variables -/
set_option autoImplicit false

namespace Yash.Restore

open Yash.Variable
open Yash.Variable.Spec
open Yash.Restore.Spec

/-! ## The operations keep the option `allexport` -/

theorem reexportIf_allexport (b : Bool) (sh : Shell) (n : Name) : (reexportIf b sh n).allexport = sh.allexport := by
  unfold reexportIf; split <;> rfl

theorem store_allexport (seed : Word → Bool) (sh : Shell) (i : Nat) (n : Name) (v : Var) : (store seed sh i n v).allexport = sh.allexport := by
  simp only [store]
  split
  · split <;> rfl
  · rfl

theorem dropVar_allexport (sh : Shell) (i : Nat) (n : Name) (v : Var) : (dropVar sh i n v).allexport = sh.allexport := by
  simp only [dropVar, reexport]
  split <;> rfl

theorem newGlobalLoop_allexport (n : Name) : ∀ k i sh f, newGlobalLoop n k i sh = some f → f.sh.allexport = sh.allexport
  | 0, i, sh, f, h => by simp [newGlobalLoop] at h; rw [← h]
  | k + 1, i, sh, f, h => by
    rw [newGlobalLoop] at h
    split at h
    · cases h
    · split at h
      · exact newGlobalLoop_allexport n k _ _ _ h
      · split at h
        · split at h
          · cases h
          · rw [newGlobalLoop_allexport n k _ _ _ h, dropVar_allexport]
        · simp at h; rw [← h]

theorem newLocalLoop_allexport (n : Name) : ∀ k i sh f, newLocalLoop n k i sh = some f → f.sh.allexport = sh.allexport
  | 0, i, sh, f, h => by simp [newLocalLoop] at h
  | k + 1, i, sh, f, h => by
    rw [newLocalLoop] at h
    split at h
    · cases h
    · split at h
      · split at h
        · exact newLocalLoop_allexport n k _ _ _ h
        · rw [newLocalLoop_allexport n k _ _ _ h, dropVar_allexport]
      · split at h <;> (simp at h; rw [← h])

theorem typeset_allexport (seed : Word → Bool) (sh sh' : Shell) (n : Name) (val : Option Word) (t : TypesetFlags) (b : Bool)
    (h : typeset seed sh n val t = some (sh', b)) : sh'.allexport = sh.allexport := by
  simp only [typeset] at h
  split at h
  · cases h
  · rename_i f hf
    simp only [Option.some.injEq, Prod.mk.injEq] at h
    rw [← h.1, reexportIf_allexport, store_allexport]
    split at hf
    · exact newGlobalLoop_allexport _ _ _ _ _ hf
    · exact newLocalLoop_allexport _ _ _ _ _ hf

theorem assign_allexport (seed : Word → Bool) (sh sh' : Shell) (n : Name) (val : Value) (exp b : Bool)
    (h : setVariable seed sh n val .global exp = some (sh', b)) : sh'.allexport = sh.allexport := by
  simp only [setVariable, newVariable] at h
  split at h
  · cases h
  · rename_i f hf
    have := newGlobalLoop_allexport _ _ _ _ _ hf
    split at h
    · simp only [Option.some.injEq, Prod.mk.injEq] at h
      rw [← h.1, this]
    · simp only [Option.some.injEq, Prod.mk.injEq] at h
      rw [← h.1, reexportIf_allexport, store_allexport, this]

/-! ## One step -/

/-- What one command of a listing does. -/
structure Did (sh sh' : Shell) (n : Name) (value : Value) (ro ex : Prop) : Prop where
  changes : ChangesOnly n 0 sh sh'
  restored : Restored sh sh' n value ro ex
  sane : Sane sh'
  top : TopLevel sh'
  allexport : sh'.allexport = false

theorem ChangesOnly.plain {n : Name} {d : Nat} {sh sh' : Shell} (h : ChangesOnly n d sh sh') (e : Nat) : PlainAt sh' e ↔ PlainAt sh e := by
  obtain ⟨h1, h2, _, _⟩ := h
  have h3 := h2 e
  have key : ∀ s : Shell, PlainAt s e ↔ e < s.scopes.length ∧ ¬TempAt s e := by
    intro s
    unfold PlainAt TempAt
    constructor
    · rintro ⟨x, hx, ht⟩
      refine ⟨?_, ?_⟩
      · have := List.getElem?_eq_some_iff.1 hx
        simpa using this.1
      · rintro ⟨y, hy, hty⟩
        rw [hx] at hy
        cases hy
        rw [ht] at hty
        cases hty
    · rintro ⟨hlt, hnt⟩
      have hlt' : e < s.scopes.reverse.length := by simpa using hlt
      refine ⟨s.scopes.reverse[e], List.getElem?_eq_getElem hlt', ?_⟩
      cases ht : s.scopes.reverse[e].temp with
      | false => rfl
      | true => exact absurd ⟨_, List.getElem?_eq_getElem hlt', ht⟩ hnt
  rw [key, key, h1, h3]

theorem ChangesOnly.top {n : Name} {d : Nat} {sh sh' : Shell} (h : ChangesOnly n d sh sh') (ht : TopLevel sh) : TopLevel sh' :=
  fun e he => ht e ((ChangesOnly.plain h e).1 he)

theorem TopLevel.target {sh : Shell} (ht : TopLevel sh) {n : Name} {k : ScopeKind} (hk : k ≠ .temp) {d : Nat} (h : Target sh n k d) : d = 0 := by
  cases k with
  | global => rcases h with h | h
              · exact ht _ h.1
              · exact h.1
  | «local» => exact ht _ h.1
  | temp => exact absurd rfl hk

/-- `typeset`, `export` or `readonly` with one operand. -/
theorem typeset_did (seed : Word → Bool) (sh : Shell) (n : Name) (val : Option Word) (t : TypesetFlags) (value : Value)
    (hs : Sane sh) (ht : TopLevel sh) (hae : sh.allexport = false) (hun : t.unexp = false)
    (hro : ∀ u, varAt sh 0 n = some u → u.readonly = false)
    (hval : ∀ w, val = some w → value = .scalar (some w))
    (hnone : val = none → (∀ u, varAt sh 0 n = some u → u.value = value) ∧ (varAt sh 0 n = none → value = .scalar none)) :
    ∃ sh', typeset seed sh n val t = some (sh', true) ∧ Did sh sh' n value (t.readonly = true) (t.exp = true) := by
  cases hstep : step seed sh (.typeset n val t) with
  | none =>
    rcases (C27_no_abort seed sh _ hs).1 hstep with ⟨h, _⟩ | ⟨_, _, _, h, _⟩ <;> cases h
  | some r =>
    obtain ⟨sh', b⟩ := r
    obtain ⟨d, v, u, h1, h2, h3, h4, h5, h6, h7, h8⟩ := C27_typeset seed sh sh' n val t b hs hstep
    have hd : d = 0 := TopLevel.target ht (by split <;> simp) h1
    subst hd
    have hur : u.readonly = false := by
      rcases h4 with h4 | ⟨_, rfl⟩
      · exact hro u h4
      · rfl
    have hb : b = true := by
      cases b with
      | true => rfl
      | false => rw [hur] at h8; exact absurd (h8.1 rfl).1 (by simp)
    subst hb
    refine ⟨sh', hstep, h2, ⟨v, h3, ?_, ?_, ?_⟩, ?_, ChangesOnly.top h2 ht, ?_⟩
    · rw [h5, hur]
      cases val with
      | some w => simpa using (hval w rfl).symm
      | none =>
        obtain ⟨i1, i2⟩ := hnone rfl
        rcases h4 with h4 | ⟨h4, rfl⟩
        · simpa using i1 u h4
        · simpa using (i2 h4).symm
    · rw [h6, hur]; simp
    · rw [h7, hun]
      rcases h4 with h4 | ⟨h4, rfl⟩
      · simp [h4]
      · simp [h4]
    · exact (sane_iff _).2 (step_sane seed sh sh' _ true ((sane_iff _).1 hs) hstep)
    · rw [typeset_allexport seed sh sh' n val t true hstep, hae]

/-- An assignment. -/
theorem assign_did (seed : Word → Bool) (sh : Shell) (n : Name) (value : Value)
    (hs : Sane sh) (ht : TopLevel sh) (hae : sh.allexport = false) (hro : ∀ u, varAt sh 0 n = some u → u.readonly = false) :
    ∃ sh', setVariable seed sh n value .global false = some (sh', true) ∧ Did sh sh' n value False False := by
  cases hstep : step seed sh (.assign n value .global false) with
  | none =>
    rcases (C27_no_abort seed sh _ hs).1 hstep with ⟨h, _⟩ | ⟨_, _, _, h, _⟩ <;> cases h
  | some r =>
    obtain ⟨sh', b⟩ := r
    have hb : b = true := by
      cases b with
      | true => rfl
      | false =>
        have h := hstep
        simp only [step, setVariable, newVariable] at h
        split at h
        · cases h
        · rename_i f hf
          obtain ⟨d, h1, h2⟩ := global_place n sh f ((sane_iff _).1 hs) hf
          have hd : d = 0 := TopLevel.target ht (by simp) h1
          subst hd
          split at h
          · rename_i hr
            rw [h2.var] at hr
            cases hv : varAt sh 0 n with
            | none => rw [hv] at hr; simp [Var.fresh] at hr
            | some u => rw [hv] at hr; simp [hro u hv] at hr
          · cases h
    subst hb
    obtain ⟨d, v, h1, h2, h3, h4, h5, h6, h7⟩ := C27_assigned seed sh sh' n value .global false hs hstep
    have hd : d = 0 := TopLevel.target ht (by simp) h1
    subst hd
    refine ⟨sh', hstep, h2, ⟨v, h3, h4, by simp [h5], ?_⟩, ?_, ChangesOnly.top h2 ht, ?_⟩
    · rw [h7, hae]; simp
    · exact (sane_iff _).2 (step_sane seed sh sh' _ true ((sane_iff _).1 hs) hstep)
    · rw [assign_allexport seed sh sh' n value false true hstep, hae]

theorem ChangesOnly.trans {n : Name} {s1 s2 s3 : Shell} (h1 : ChangesOnly n 0 s1 s2) (h2 : ChangesOnly n 0 s2 s3) : ChangesOnly n 0 s1 s3 :=
  ⟨h2.1.trans h1.1, fun e => (h2.2.1 e).trans (h1.2.1 e), fun m e hm => (h2.2.2.1 m e hm).trans (h1.2.2.1 m e hm), fun e he => absurd he (Nat.not_lt_zero e)⟩

/-- An assignment of an array and then its attributes. -/
theorem assign_typeset_did (seed : Word → Bool) (sh : Shell) (n : Name) (vs : List Word) (t : TypesetFlags)
    (hs : Sane sh) (ht : TopLevel sh) (hae : sh.allexport = false) (hun : t.unexp = false) (hro : ∀ u, varAt sh 0 n = some u → u.readonly = false) :
    ∃ sh1 sh', setVariable seed sh n (.array vs) .global false = some (sh1, true) ∧ typeset seed sh1 n none t = some (sh', true) ∧
      Did sh sh' n (.array vs) (t.readonly = true) (t.exp = true) := by
  obtain ⟨sh1, h1, d1⟩ := assign_did seed sh n (.array vs) hs ht hae hro
  obtain ⟨v1, i1, i2, i3, i4⟩ := d1.restored
  have hv1 : v1.readonly = false := by cases h : v1.readonly with
    | false => rfl
    | true => exact absurd (i3.1 h) (by simp)
  obtain ⟨sh', h2, d2⟩ := typeset_did seed sh1 n none t (.array vs) d1.sane d1.top d1.allexport hun
    (fun u hu => by rw [i1.1] at hu; cases hu; exact hv1) (by simp)
    (fun _ => ⟨fun u hu => by rw [i1.1] at hu; cases hu; exact i2, fun h => by rw [i1.1] at h; cases h⟩)
  refine ⟨sh1, sh', h1, h2, ChangesOnly.trans d1.changes d2.changes, ?_, d2.sane, d2.top, d2.allexport⟩
  obtain ⟨v, j1, j2, j3, j4⟩ := d2.restored
  refine ⟨v, j1, j2, j3, j4.trans ?_⟩
  constructor
  · rintro (h | ⟨u, hu, he⟩)
    · exact .inl h
    · rw [i1.1] at hu
      cases hu
      rcases i4.1 he with h | h
      · exact h.elim
      · exact .inr h
  · rintro (h | h)
    · exact .inl h
    · exact .inr ⟨v1, i1.1, i4.2 (.inr h)⟩

end Yash.Restore
