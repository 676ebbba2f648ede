import Verif.Restore.Exec
/-! # A listing is executed variable by variable -/
set_option autoImplicit false

namespace Yash.Restore

open Yash.Variable
open Yash.Variable.Spec
open Yash.Restore.Spec
open Yash.Syntax Yash.Parser
open Yash.Parser.Spec
open Yash.Expand (Locale quoteAsWord lineOf expandLine expandSingle)

/-- The text is executed first and leads from one state to the other. -/
def Leads (C : Config) (text : List Char) (sh sh' : Shell) : Prop :=
  ∀ rest sh2, (∀ k, rest.length < k → runLines C k rest sh' = some (sh2, [])) →
    ∀ k, (text ++ rest).length < k → runLines C k (text ++ rest) sh = some (sh2, [])

theorem Leads.nil (C : Config) (sh : Shell) : Leads C [] sh sh := fun _ _ h => by simpa using h

theorem Leads.append {C : Config} {t1 t2 : List Char} {s1 s2 s3 : Shell} (h1 : Leads C t1 s1 s2) (h2 : Leads C t2 s2 s3) : Leads C (t1 ++ t2) s1 s3 := by
  intro rest sh2 h k hk
  rw [List.append_assoc] at hk ⊢
  exact h1 (t2 ++ rest) sh2 (h2 rest sh2 h) k hk

theorem Leads.line {C : Config} {line : List Char} {c : Yash.Syntax.Command} {sh sh1 : Shell} (hne : line ≠ [])
    (hp : ∀ rest, parseLine C.locale (line ++ rest) = some (oneCommand c, rest)) (he : execCommand C c sh = some (sh1, [])) : Leads C line sh sh1 :=
  fun rest _ h => runLines_line C hne (hp rest) he h

theorem Leads.run {C : Config} {text : List Char} {sh sh' : Shell} (h : Leads C text sh sh') : runScript C text sh = some (sh', []) := by
  have := h [] sh' (fun k hk => by
    obtain ⟨m, rfl⟩ : ∃ m, k = m + 1 := ⟨k - 1, by simp at hk; omega⟩
    simp [runLines]) (text.length + 1) (by simp)
  simpa [runScript] using this

/-! ## The built-ins -/

/-- What the operands of the printed command are given. -/
def flagsOf (b : Builtin) (v : Var) : TypesetFlags :=
  match b with
  | .export => ⟨true, false, true, false⟩
  | .readonly => ⟨true, true, false, false⟩
  | _ => ⟨false, v.readonly, v.exported, false⟩

/-- The options that are printed. -/
def optsOf (b : Builtin) (v : Var) : List (List Char) :=
  match b with
  | .typeset => optArgs v
  | .local => optArgs v
  | _ => []

theorem lineOf_ne (ts : List (List Char)) : lineOf ts ≠ [] := by
  rw [lineOf_last]; simp

theorem attr_leads (C : Config) (hL : LocaleOk C.locale) (hR : C.env.long.Ok) {b : Builtin} (hb : b ≠ .array ∧ b ≠ .set)
    (hp : b = .typeset ∨ b = .local → C.posix = false) {n : Name} (hn : '=' ∉ n) (hd : n.head? ≠ some '-') (v : Var) (val : Option (List Char))
    {sh sh' : Shell} (h : Variable.typeset C.seed sh n val (flagsOf b v) = some (sh', true)) :
    Leads C (lineOf (b.name :: (optsOf b v ++
      [printOperand (if !isName C.locale n then quoteAsWord C.locale n else n) (val.map (quoteAsWord C.locale))]))) sh sh' := by
  have hlit : ∀ o ∈ optsOf b v, Literal C.locale o o := by
    intro o ho
    have h2 : o ∈ optArgs v := by cases b <;> simp_all [optsOf]
    exact optArgs_literal hL v o h2
  obtain ⟨ws, hdef⟩ : ∃ ws : List (List Char × List Char), ws = (optsOf b v).map (fun o => (o, o)) ++
    [(printOperand (if !isName C.locale n then quoteAsWord C.locale n else n) (val.map (quoteAsWord C.locale)), operand n val)] := ⟨_, rfl⟩
  have hws : ∀ w ∈ ws, Literal C.locale w.1 w.2 := by
    intro w hw
    rw [hdef] at hw
    rcases List.mem_append.1 hw with hw | hw
    · obtain ⟨o, ho, rfl⟩ := List.mem_map.1 hw
      exact hlit o ho
    · simp only [List.mem_singleton] at hw
      subst hw
      exact operand_literal hL val
  have h1 : ws.map (·.1) = optsOf b v ++
      [printOperand (if !isName C.locale n then quoteAsWord C.locale n else n) (val.map (quoteAsWord C.locale))] := by
    simp [hdef, Function.comp_def]
  have h2 : ws.map (·.2) = optsOf b v ++ [operand n val] := by
    simp [hdef, Function.comp_def]
  rw [← h1]
  have hrun : runBuiltin C b (ws.map (·.2)) sh = some (sh', [], true) := by
    rw [h2]
    have hop := operand_head hd val
    cases b with
    | array => exact absurd rfl hb.1
    | set => exact absurd rfl hb.2
    | typeset =>
      simp only [runBuiltin, optsOf, run_typeset C (hp (.inl rfl)) .typeset (.inl rfl) v hop, typesetOperand_operand C _ hn]
      simp only [flagsOf] at h
      rw [h]; rfl
    | «local» =>
      simp only [runBuiltin, optsOf, run_typeset C (hp (.inr rfl)) .local (.inr rfl) v hop, typesetOperand_operand C _ hn]
      simp only [flagsOf] at h
      rw [h]; rfl
    | «export» =>
      simp only [runBuiltin, optsOf, List.nil_append, run_export C hop, typesetOperand_operand C _ hn]
      simp only [flagsOf] at h
      rw [h]; rfl
    | «readonly» =>
      simp only [runBuiltin, optsOf, List.nil_append, run_readonly C hop, typesetOperand_operand C _ hn]
      simp only [flagsOf] at h
      rw [h]; rfl
  refine Leads.line ?_ (fun rest => builtin_line hL b ws hws rest) (builtin_exec C hL hR b ws hws hrun)
  exact lineOf_ne _

/-- The text of a printed command with one operand. -/
def attrText (b : Builtin) (v : Var) (o : List Char) : List Char :=
  match b with
  | .array => []
  | .set => []
  | .export => b.name ++ ' ' :: (o ++ ['\n'])
  | .readonly => b.name ++ ' ' :: (o ++ ['\n'])
  | .local => b.name ++ optionString v ++ ' ' :: (o ++ ['\n'])
  | .typeset => b.name ++ optionString v ++ ' ' :: (o ++ ['\n'])

theorem attr_text (b : Builtin) (hb : b ≠ .array ∧ b ≠ .set) (v : Var) (o : List Char) : attrText b v o = lineOf (b.name :: (optsOf b v ++ [o])) := by
  cases b with
  | array => exact absurd rfl hb.1
  | set => exact absurd rfl hb.2
  | typeset => exact optionString_line v _ o
  | «local» => exact optionString_line v _ o
  | «export» => simp [attrText, optsOf, lineOf]
  | «readonly» => simp [attrText, optsOf, lineOf]

theorem printScalar_attr (L : Locale) (b : Builtin) (hb : b ≠ .array ∧ b ≠ .set) (q : List Char) (nq : Bool) (v : Var) (val : Option (List Char)) :
    printScalar L b q nq v val = attrText b v (printOperand q (val.map (quoteAsWord L))) := by
  cases b with
  | array => exact absurd rfl hb.1
  | set => exact absurd rfl hb.2
  | typeset => rfl
  | «local» => rfl
  | «export» => rfl
  | «readonly» => rfl

theorem printArray_attr (L : Locale) (b : Builtin) (q : List Char) (v : Var) (vs : List (List Char)) :
    printArray L b q v vs = q ++ "=(".toList ++ printElements L vs ++ ")\n".toList ++ attrText b v q := by
  cases b <;> rfl

/-! ## Assignments -/

theorem scalar_leads (C : Config) (hL : LocaleOk C.locale) {n : Name} (hn : IsName C.locale n) (w : List Char) {sh sh' : Shell}
    (h : setVariable C.seed sh n (.scalar (some w)) .global false = some (sh', true)) :
    Leads C (n ++ '=' :: (quoteAsWord C.locale w ++ ['\n'])) sh sh' := by
  refine Leads.line (by simp) (c := .simple [] [.scalar n [.str (quoteAsWord C.locale w)]] []) ?_ ?_
  · intro rest
    have := scalar_line hL (NameWord.of hn) w rest
    simpa using this
  · have hq := quoted_value (E := C.env) hL.ok w sh
    have e1 : expandLine C.env [] sh = .ok sh [] := rfl
    simp only [execCommand, e1, doAssignments]
    rw [show C.locale = C.env.locale from rfl, hq]
    simp only [h]
    rfl

theorem array_leads (C : Config) (hL : LocaleOk C.locale) (hR : C.env.long.Ok) {n : Name} (hn : IsName C.locale n) (vs : List (List Char)) {sh sh' : Shell}
    (h : setVariable C.seed sh n (.array vs) .global false = some (sh', true)) :
    Leads C (n ++ "=(".toList ++ printElements C.locale vs ++ ")\n".toList) sh sh' := by
  refine Leads.line (by simp) (c := .simple [] [.array n (vs.map fun v => [.str (quoteAsWord C.locale v)])] []) ?_ ?_
  · intro rest
    have := array_line hL (NameWord.of hn) vs rest
    rw [printElements_line]
    simpa using this
  · have hq := expand_literals (E := C.env) hL.ok hR (vs.map fun v => (quoteAsWord C.locale v, v)) (by
      intro w hw
      obtain ⟨v, _, rfl⟩ := List.mem_map.1 hw
      exact literal_quote hL.ok v) sh
    simp only [List.map_map, Function.comp_def] at hq
    have e0 : (vs.map fun v : List Char => v) = vs := by simp
    have e1 : expandLine C.env [] sh = .ok sh [] := rfl
    simp only [execCommand, e1, doAssignments, hq, e0, h]
    rfl

/-! ## One variable -/

/-- Which variables become read-only. -/
def setsRo (b : Builtin) (v : Var) : Prop :=
  match b with
  | .typeset => v.readonly = true
  | .local => v.readonly = true
  | .readonly => True
  | _ => False

/-- Which variables become exported. -/
def setsEx (b : Builtin) (v : Var) : Prop :=
  match b with
  | .typeset => v.exported = true
  | .local => v.exported = true
  | .export => True
  | _ => False

/-- Which variables are printed. -/
structure Printed (L : Locale) (b : Builtin) (ro ex : Bool) (n : Name) (v : Var) : Prop where
  head : n.head? ≠ some '='
  ro : ro = true → v.readonly = true
  ex : ex = true → v.exported = true
  set : b = .set → v.value ≠ .scalar none ∧ ((∃ w, v.value = .scalar w) → IsName L n)
  array : b = .array → ∃ vs, v.value = .array vs

theorem not_printed {L : Locale} {b : Builtin} {ro ex : Bool} {n : Name} {v : Var} (h : ¬Printed L b ro ex n v) :
    printVariable L b ro ex n v = [] := by
  unfold printVariable
  split
  · rfl
  · split
    · rfl
    · split
      · rfl
      · rename_i h1 h2 h3
        refine (Classical.byContradiction fun hc => h ⟨h1, ?_, ?_, ?_, ?_⟩)
        · rintro rfl; simpa using h2
        · rintro rfl; simpa using h3
        · rintro rfl
          cases hv : v.value with
          | array vs => simp
          | scalar w =>
            cases w with
            | none => simp [hv, printScalar] at hc
            | some w =>
              refine ⟨by simp, fun _ => ?_⟩
              rw [← isName_iff]
              cases hi : isName L n with
              | true => rfl
              | false => simp [hv, printScalar, hi] at hc
        · rintro rfl
          cases hv : v.value with
          | array vs => exact ⟨vs, rfl⟩
          | scalar w => simp [hv, printScalar] at hc

theorem IsName.plain {L : Locale} (hL : LocaleOk L) {n : Name} (h : IsName L n) : '=' ∉ n ∧ n.head? ≠ some '-' := by
  obtain ⟨c, s, rfl, h2, h3⟩ := h
  refine ⟨fun hm => ?_, fun hm => ?_⟩
  · rcases h3 _ hm with h | h
    · exact absurd h (by decide)
    · rw [hL.ok.alnum_special '=' (by decide)] at h; cases h
  · simp at hm
    subst hm
    rcases h3 '-' (by simp) with h | h
    · exact absurd h (by decide)
    · rw [hL.punct '-' (by decide)] at h; cases h

/-- One variable of the listing. -/
theorem variable_leads (C : Config) (hL : LocaleOk C.locale) (hR : C.env.long.Ok) {b : Builtin} (hp : b = .typeset ∨ b = .local → C.posix = false)
    {ro ex : Bool} {n : Name} {v : Var} (hpr : Printed C.locale b ro ex n v) (hw : Writable C.locale n v) {sh : Shell} (hr : Replaceable sh n v)
    (hs : Sane sh) (ht : TopLevel sh) (hae : sh.allexport = false) :
    ∃ sh', Did sh sh' n v.value (setsRo b v) (setsEx b v) ∧ Leads C (printVariable C.locale b ro ex n v) sh sh' := by
  have hflags : b ≠ .array ∧ b ≠ .set → (flagsOf b v).unexp = false ∧ (((flagsOf b v).readonly = true) = setsRo b v) ∧ (((flagsOf b v).exp = true) = setsEx b v) := by
    rintro ⟨h1, h2⟩
    cases b <;> simp_all [flagsOf, setsRo, setsEx]
  have hprint : printVariable C.locale b ro ex n v =
      (match v.value with
        | .scalar value => printScalar C.locale b (if !isName C.locale n then quoteAsWord C.locale n else n) (!isName C.locale n) v value
        | .array values => printArray C.locale b (if !isName C.locale n then quoteAsWord C.locale n else n) v values) := by
    unfold printVariable
    rw [if_neg hpr.head, if_neg, if_neg]
    · rfl
    · cases ex with
      | false => simp
      | true => simp [hpr.ex rfl]
    · cases ro with
      | false => simp
      | true => simp [hpr.ro rfl]
  rw [hprint]
  have hro : ∀ u, varAt sh 0 n = some u → u.readonly = false := fun u hu => (hr u hu).1
  cases hv : v.value with
  | scalar val =>
    simp only [Writable, hv] at hw
    by_cases hb : b = .set
    · subst hb
      obtain ⟨h1, h2⟩ := hpr.set rfl
      have hn := h2 ⟨val, hv⟩
      cases val with
      | none => exact absurd hv h1
      | some w =>
        obtain ⟨sh', e1, e2⟩ := assign_did C.seed sh n (.scalar (some w)) hs ht hae hro
        refine ⟨sh', e2, ?_⟩
        have := scalar_leads C hL hn w e1
        simpa [printScalar, isName_iff.2 hn] using this
    · by_cases hb2 : b = .array
      · obtain ⟨vs, h⟩ := hpr.array hb2
        rw [hv] at h; cases h
      · obtain ⟨f1, f2, f3⟩ := hflags ⟨hb2, hb⟩
        obtain ⟨sh', e1, e2⟩ := typeset_did C.seed sh n val (flagsOf b v) (.scalar val) hs ht hae f1 hro
          (fun w hw => by rw [hw]) (fun hnone => by
            subst hnone
            exact ⟨fun u hu => (hr u hu).2 hv, fun _ => rfl⟩)
        rw [f2, f3] at e2
        refine ⟨sh', e2, ?_⟩
        have := attr_leads C hL hR ⟨hb2, hb⟩ hp hw.1 hw.2 v val e1
        rw [← attr_text b ⟨hb2, hb⟩] at this
        simp only
        rw [printScalar_attr _ _ ⟨hb2, hb⟩]
        exact this
  | array vs =>
    simp only [Writable, hv] at hw
    obtain ⟨p1, p2⟩ := IsName.plain hL hw
    simp only [isName_iff.2 hw, Bool.not_true, Bool.false_eq_true, if_false, printArray_attr]
    by_cases hb : b = .array ∨ b = .set
    · obtain ⟨sh', e1, e2⟩ := assign_did C.seed sh n (.array vs) hs ht hae hro
      have h1 := array_leads C hL hR hw vs e1
      refine ⟨sh', ?_, ?_⟩
      · rcases hb with rfl | rfl <;> exact e2
      · rcases hb with rfl | rfl <;> simpa [attrText] using h1
    · have hb' : b ≠ .array ∧ b ≠ .set := ⟨fun h => hb (.inl h), fun h => hb (.inr h)⟩
      obtain ⟨f1, f2, f3⟩ := hflags hb'
      obtain ⟨sh1, sh', e1, e2, e3⟩ := assign_typeset_did C.seed sh n vs (flagsOf b v) hs ht hae f1 hro
      rw [f2, f3] at e3
      refine ⟨sh', e3, (array_leads C hL hR hw vs e1).append ?_⟩
      have := attr_leads C hL hR hb' hp p1 p2 v none e2
      rw [← attr_text b hb'] at this
      simp only [isName_iff.2 hw, Bool.not_true, Bool.false_eq_true, if_false, Option.map_none, printOperand] at this
      exact this

/-! ## All variables -/

theorem Did.other {sh sh' : Shell} {n m : Name} {value : Value} {ro ex : Prop} (h : Did sh sh' n value ro ex) (hm : m ≠ n) (d : Nat) :
    varAt sh' d m = varAt sh d m := h.changes.2.2.1 m d hm

theorem listing_leads (C : Config) (hL : LocaleOk C.locale) (hR : C.env.long.Ok) {b : Builtin} (hp : b = .typeset ∨ b = .local → C.posix = false)
    {ro ex : Bool} (es : List (Name × Var)) (hnd : (keys es).Nodup) :
    ∀ sh, Sane sh → TopLevel sh → sh.allexport = false →
    (∀ e ∈ es, Printed C.locale b ro ex e.1 e.2 → Writable C.locale e.1 e.2 ∧ Replaceable sh e.1 e.2) →
    ∃ sh', Leads C (es.flatMap fun e => printVariable C.locale b ro ex e.1 e.2) sh sh' ∧
      (∀ e ∈ es, Printed C.locale b ro ex e.1 e.2 → Restored sh sh' e.1 e.2.value (setsRo b e.2) (setsEx b e.2)) ∧
      (∀ n d, (∀ e ∈ es, e.1 = n → ¬Printed C.locale b ro ex e.1 e.2) → varAt sh' d n = varAt sh d n) := by
  induction es with
  | nil =>
    intro sh _ _ _ _
    exact ⟨sh, Leads.nil C sh, by simp, fun _ _ _ => rfl⟩
  | cons e es ih =>
    intro sh hs ht hae hpre
    unfold keys at hnd ih
    rw [List.map_cons, List.nodup_cons] at hnd
    have hne : ∀ e' ∈ es, e'.1 ≠ e.1 := fun e' he' h => hnd.1 (List.mem_map.2 ⟨e', he', h⟩)
    by_cases hpr : Printed C.locale b ro ex e.1 e.2
    · obtain ⟨hw, hr⟩ := hpre e List.mem_cons_self hpr
      obtain ⟨sh1, d1, l1⟩ := variable_leads C hL hR hp hpr hw hr hs ht hae
      obtain ⟨sh', l2, r2, o2⟩ := ih hnd.2 sh1 d1.sane d1.top d1.allexport (by
        intro e' he' hpr'
        obtain ⟨hw', hr'⟩ := hpre e' (List.mem_cons_of_mem _ he') hpr'
        refine ⟨hw', fun u hu => ?_⟩
        rw [d1.other (hne e' he')] at hu
        exact hr' u hu)
      refine ⟨sh', ?_, ?_, ?_⟩
      · rw [List.flatMap_cons]
        exact l1.append l2
      · intro e' he' hpr'
        rcases List.mem_cons.1 he' with rfl | he'
        · obtain ⟨v, i1, i2, i3, i4⟩ := d1.restored
          have hsame : ∀ d, varAt sh' d e'.1 = varAt sh1 d e'.1 := fun d => o2 e'.1 d fun e'' he'' h => absurd h (hne e'' he'')
          refine ⟨v, ⟨(hsame 0).trans i1.1, fun d hd => (hsame d).trans (i1.2 d hd)⟩, i2, i3, i4⟩
        · obtain ⟨v, i1, i2, i3, i4⟩ := r2 e' he' hpr'
          refine ⟨v, i1, i2, i3, ?_⟩
          rw [d1.other (hne e' he')] at i4
          exact i4
      · intro n d hn
        rw [o2 n d fun e' he' => hn e' (List.mem_cons_of_mem _ he')]
        refine d1.other ?_ d
        rintro rfl
        exact hn e List.mem_cons_self rfl hpr
    · obtain ⟨sh', l2, r2, o2⟩ := ih hnd.2 sh hs ht hae (fun e' he' => hpre e' (List.mem_cons_of_mem _ he'))
      refine ⟨sh', ?_, ?_, ?_⟩
      · rw [List.flatMap_cons, not_printed hpr]
        exact l2
      · intro e' he' hpr'
        rcases List.mem_cons.1 he' with rfl | he'
        · exact absurd hpr' hpr
        · exact r2 e' he' hpr'
      · intro n d hn
        exact o2 n d fun e' he' => hn e' (List.mem_cons_of_mem _ he')

end Yash.Restore
