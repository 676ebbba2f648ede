import Verif.Expand.WordLemmas
import Verif.Fnmatch.Props
/-!
# Property C43: what quoted words and variables expand to
-/
set_option autoImplicit false

namespace Yash.Expand

open Spec (glue Piece Spells DPart Seg simpleParam Writes quotedFields wordFields)
open Syntax (Word WordUnit Param)

/-! ## Variables -/

theorem concatenate_eq (ifs : Option (List Char)) (vs : List (List Char)) :
    concatenate ifs vs = [List.intercalate (Spec.separator ifs) vs] := by
  unfold concatenate
  split
  · simp [List.intercalate]
  · rfl

/-- The number of elements of an array fits in `ssize_t`. -/
def Fits : VarValue → Prop
  | .array vs => (vs.length : Int) ≤ ssizeMax
  | .concat vs => (vs.length : Int) ≤ ssizeMax
  | _ => True

/-- Whether the values are joined in double quotes. -/
def isConcat : VarValue → Bool
  | .concat _ => true
  | _ => false

theorem select_all (v : VarValue) (h : Fits v) :
    select v .none 0 ssizeMax = ⟨Spec.unquotedValues v, isConcat v, 0, ssizeMax⟩ := by
  have hr : ∀ n : Nat, arrayRange n 0 ssizeMax = (0, ssizeMax) := by
    intro n
    have h1 : ¬ (0 > (n : Int)) := by omega
    have h2 : ¬ ((9223372036854775807 : Int) < 0) := by omega
    simp only [arrayRange, ssizeMax, ge_iff_le, Int.le_refl, if_true, h1, h2, if_false]
  have ht : ∀ vs : List (List Char), (vs.length : Int) ≤ ssizeMax → trimArray vs 0 ssizeMax = vs := by
    intro vs hl
    simp only [trimArray, ssizeMax, Int.toNat_zero, List.drop_zero] at hl ⊢
    apply List.take_of_length_le
    omega
  cases v with
  | notFound => simp [select, Spec.unquotedValues, isConcat, trimString]
  | scalar x => simp [select, Spec.unquotedValues, isConcat, trimString]
  | array vs => simp only [Fits] at h; simp [select, Spec.unquotedValues, isConcat, hr, ht vs h]
  | concat vs => simp only [Fits] at h; simp [select, Spec.unquotedValues, isConcat, hr, ht vs h]

/-- The fields of a variable in and outside double quotes. -/
def varWords {σ : Type} (E : Env σ) (s : σ) (indq : Bool) (x : List Char) : List CWord :=
  markValues indq (if indq then quotedFields (E.getvar s "IFS".toList) (E.get s x) else Spec.unquotedValues (E.get s x))

theorem expandParam_simple {σ : Type} (E : Env σ) (s : σ) (x : List Char) (indq : Bool)
    (hset : E.get s x ≠ .notFound ∨ E.unsetOk = true) (hfit : Fits (E.get s x)) :
    expandParam E indq (simpleParam x) s = .ok s (varWords E s indq x) := by
  simp only [simpleParam, expandParam, List.isEmpty_nil, if_true, bind, M.bind, pure, M.pure, expandBase]
  rw [select_all _ hfit]
  have hu : (countsUnset (E.get s x) ({} : Syntax.ParamType).colon (Spec.unquotedValues (E.get s x)) && !E.unsetOk) = false := by
    rcases hset with h | h
    · simp [countsUnset, h]
    · simp [h]
  simp only [hu]
  simp only [varWords]
  cases hv : E.get s x <;> cases indq <;> simp [finishParam, concatenate_eq, isConcat, quotedFields, Spec.unquotedValues]

theorem markValues_text (vs : List (List Char)) : (markValues true vs).map (quoteRemoval .none) = vs := by
  simp only [markValues, Bool.true_and, List.map_map]
  have hq : ∀ v : List Char, quoteRemoval .none (v.map fun c => (c, ({ origin := .soft, quoted := true } : CC))) = v := by
    intro v
    induction v with
    | nil => rfl
    | cons c v ih => simp [quoteRemoval, shouldEscape, ih]
  conv => rhs; rw [← List.map_id vs]
  apply List.map_congr_left
  intro v _
  simp only [Function.comp_apply, quoteRemoval_append, hq, id]
  split <;> simp [quoteRemoval]

theorem vals_varWords {σ : Type} (E : Env σ) (s : σ) (xs : List (List Char)) :
    Vals (fun x => quotedFields (E.getvar s "IFS".toList) (E.get s x)) (varWords E s) xs where
  text := by
    intro x _
    simp only [varWords, if_true]
    exact markValues_text _
  inert := by
    intro x _ w hw c hc
    simp only [varWords, if_true, markValues, List.mem_map] at hw
    obtain ⟨v, _, rfl⟩ := hw
    simp only [List.mem_append, List.mem_map] at hc
    rcases hc with ⟨a, _, rfl⟩ | hc
    · simp [Inert]
    · split at hc
      · simp only [List.mem_cons, List.not_mem_nil, or_false] at hc
        subst hc
        simp [Inert]
      · cases hc
  many := by
    intro x _ hl w hw
    simp only [varWords, if_true, markValues, List.mem_map, List.length_map] at hw hl
    obtain ⟨v, _, rfl⟩ := hw
    rw [decide_eq_true hl]
    simp
  one := by
    intro x _ w hw hq
    have ht : (varWords E s true x).map (quoteRemoval .none) = quotedFields (E.getvar s "IFS".toList) (E.get s x) := by
      simp only [varWords, if_true]; exact markValues_text _
    rw [hw] at ht
    simp only [List.map_cons, List.map_nil, hq] at ht
    have : varWords E s true x = [[]] := by
      simp only [varWords, if_true, ← ht]
      rfl
    rw [this] at hw
    simpa using hw.symm

/-! ## Words -/

theorem segs_fold {val : List Char → List (List Char)} {vals : Bool → List Char → List CWord} :
    ∀ (gs : List Seg), (∀ g ∈ gs, g.Ok) → Vals val vals (gs.flatMap Seg.vars) → ∀ (st : St), Good st →
    Good ((gs.flatMap segOps).foldl (opStep vals) st) ∧
    ((gs.flatMap segOps).foldl (opStep vals) st).cur.map (quoteRemoval .none) =
      glue (st.cur.map (quoteRemoval .none)) (wordFields val gs)
  | [], _, _, st, hg => ⟨hg, by simp [wordFields, glue_nil_right]⟩
  | g :: gs, hok, hv, st, hg => by
    obtain ⟨h1, h2⟩ := seg_fold g (hok g List.mem_cons_self) (hv.mono fun y hy => by simp [hy]) st hg
    obtain ⟨i1, i2⟩ := segs_fold gs (fun g hg => hok g (List.mem_cons_of_mem _ hg)) (hv.mono fun y hy => by
      simp only [List.flatMap_cons, List.mem_append]; exact Or.inr hy) _ h1
    simp only [List.flatMap_cons, List.foldl_append]
    refine ⟨i1, ?_⟩
    rw [i2, h2, glue_assoc]
    rfl

/-- **C43.** A word in which everything that could be expanded further is quoted expands to exactly the
fields that its segments say, whatever the options, the variables (`IFS` included), the working directory and
the files are.  The variables in it must be set, or unset variables must be allowed. -/
theorem C43_quoted_word {σ : Type} (E : Env σ) (hL : E.locale.Ok) (hR : E.long.Ok) (s : σ)
    (gs : List Seg) (hok : ∀ g ∈ gs, g.Ok) (htilde : ∀ r, gs ≠ .chr '~' :: r)
    (hset : ∀ x ∈ gs.flatMap Seg.vars, E.get s x ≠ .notFound ∨ E.unsetOk = true)
    (hfit : ∀ x ∈ gs.flatMap Seg.vars, Fits (E.get s x))
    (w : Word) (hw : Writes gs w) :
    expandMultiple E w s = .ok s (wordFields (fun x => quotedFields (E.getvar s "IFS".toList) (E.get s x)) gs) := by
  have hpieces : (gs.flatMap segOps).map Op.piece = gs.flatMap Seg.pieces := by
    rw [List.map_flatMap]
    congr 1
    funext g
    exact segOps_pieces g
  have hunits := expandUnits_ops E s (varWords E s) _ w hw (gs.flatMap segOps) {} true hpieces (valid_segs gs hok)
    (by
      intro _ t ht
      cases gs with
      | nil => simp at ht
      | cons g gs =>
        cases g <;> simp [Seg.pieces] at ht
        exact htilde gs (by rw [ht.1]))
    (by
      intro x hx indq
      have hx' : x ∈ gs.flatMap Seg.vars := by
        rw [List.mem_flatMap] at hx ⊢
        obtain ⟨g, hg, hx⟩ := hx
        refine ⟨g, hg, ?_⟩
        cases g <;> simp [segOps] at hx
        obtain ⟨p, hp, hd⟩ := hx
        simp only [Seg.vars, List.mem_flatMap]
        refine ⟨p, hp, ?_⟩
        cases p <;> simp [dop] at hd
        simp [DPart.vars, hd]
      exact expandParam_simple E s x indq (hset x hx') (hfit x hx'))
  obtain ⟨hg, hcur⟩ := segs_fold gs hok (vals_varWords E s _) ({} : St) ⟨rfl, by simp [St.cur], by simp [St.cur]⟩
  generalize (gs.flatMap segOps).foldl (opStep (varWords E s)) {} = st at hunits hg hcur
  have hfour : expandFour E .single .word .lit w s = .ok s st.finish := by
    simp only [expandFour, bind, M.bind, hunits]; rfl
  have hcur' : st.cur.map (quoteRemoval .none) =
      wordFields (fun x => quotedFields (E.getvar s "IFS".toList) (E.get s x)) gs := by
    rw [hcur]; simp [St.cur, glue]
  rw [← hcur']
  by_cases hc : st.fields = [] ∧ st.buf = []
  · have h0 : st.cur = [] := by simp [St.cur, hc]
    rw [h0]
    by_cases hre : st.removeempty = true
    · have : st.finish = [] := by simp [St.finish, hc, hre]
      rw [this] at hfour
      exact expandMultiple_inert E hL hR w s s [] hfour (by simp)
    · have : st.finish = [[]] := by simp [St.finish, hc, hre]
      rw [this] at hfour
      simp only [expandMultiple, bind, M.bind, hfour]
      have hb : (if E.braceexpand then expandBraceEach E.locale E.long [[]] else some [[]]) = some [[]] := by
        split
        · exact expandBraceEach_inert hL hR [[]] (by simp)
        · rfl
      rw [hb]
      simp only [M.check, M.pure, pure, M.get]
      rw [C14_fieldsplit_list]
      simp [Spec.fields, Spec.allFields, Spec.cut, Spec.pieceFields]
  · have h1 : st.cur = st.finish := by
      have : (st.removeempty && st.fields.isEmpty && st.buf.isEmpty) = false := by
        cases hf : st.fields with
        | nil =>
          cases hb : st.buf with
          | nil => exact absurd ⟨hf, hb⟩ hc
          | cons => simp
        | cons => simp
      simp [St.cur, hc, St.finish, this, St.all]
    rw [h1]
    exact expandMultiple_inert E hL hR w s s _ hfour fun w hw => by
      rw [← h1] at hw
      exact ⟨hg.full w hw, hg.inert w hw⟩

/-! ### Consequences -/

/-- The text of a segment without variables. -/
def Spec.Seg.literal : Seg → Option (List Char)
  | .chr c => some [c]
  | .sq s => some s
  | .bs c => some [c]
  | .dq _ => none

/-- **C43**, words without double quotes: one field, the text without the quotes. -/
theorem C43_literal_word {σ : Type} (E : Env σ) (hL : E.locale.Ok) (hR : E.long.Ok) (s : σ)
    (gs : List Seg) (hok : ∀ g ∈ gs, g.Ok) (htilde : ∀ r, gs ≠ .chr '~' :: r) (hne : gs ≠ [])
    (ts : List (List Char)) (hts : gs.map Seg.literal = ts.map some) (w : Word) (hw : Writes gs w) :
    expandMultiple E w s = .ok s [ts.flatten] := by
  have hvars : gs.flatMap Seg.vars = [] := by
    rw [List.flatMap_eq_nil_iff]
    intro g hg
    cases g with
    | dq ps =>
      have : Seg.literal (.dq ps) ∈ ts.map some := hts ▸ List.mem_map_of_mem hg
      simp [Seg.literal] at this
    | _ => rfl
  rw [C43_quoted_word E hL hR s gs hok htilde (by simp [hvars]) (by simp [hvars]) w hw]
  congr 1
  generalize (fun x => quotedFields (E.getvar s "IFS".toList) (E.get s x)) = val
  clear hok htilde hvars hw
  induction gs generalizing ts with
  | nil => exact absurd rfl hne
  | cons g gs ih =>
    cases ts with
    | nil => simp at hts
    | cons t ts =>
      simp only [List.map_cons, List.cons.injEq] at hts
      have hgf : g.fields val = [t] := by
        cases g <;> simp [Seg.literal] at hts <;> simp [Seg.fields, hts.1]
      by_cases h : gs = []
      · subst h
        have : ts = [] := by simpa using hts.2.symm
        subst this
        simp [wordFields, hgf, glue]
      · have := ih h ts hts.2
        simp only [wordFields, List.foldr_cons] at this ⊢
        rw [this, hgf]
        rfl

theorem writes_quoted_var (x : List Char) :
    Writes [.dq [.var x]] [.str ['"'], .param (simpleParam x), .str ['"']] :=
  .str [['"']] _ _ (.unit _ _ _ (.str [['"']] _ _ .nil))

/-- **C43**, `"$x"` is one field, the value, if `x` is a scalar variable. -/
theorem C43_quoted_scalar {σ : Type} (E : Env σ) (hL : E.locale.Ok) (hR : E.long.Ok) (s : σ) (x v : List Char)
    (hx : E.get s x = .scalar v) :
    expandMultiple E [.str ['"'], .param (simpleParam x), .str ['"']] s = .ok s [v] := by
  rw [C43_quoted_word E hL hR s [.dq [.var x]] (by simp [Seg.Ok, DPart.Ok]) (by simp)
    (by simp [Seg.vars, DPart.vars, hx]) (by simp [Seg.vars, DPart.vars, hx, Fits]) _
    (writes_quoted_var x)]
  simp [wordFields, Seg.fields, Spec.content, DPart.fields, DPart.vars, quotedFields, hx, glue]

/-- **C43**, `"$@"` is one field for every positional parameter. -/
theorem C43_quoted_at {σ : Type} (E : Env σ) (hL : E.locale.Ok) (hR : E.long.Ok) (s : σ) (x : List Char)
    (vs : List (List Char)) (hx : E.get s x = .array vs) (hfit : (vs.length : Int) ≤ ssizeMax) :
    expandMultiple E [.str ['"'], .param (simpleParam x), .str ['"']] s = .ok s vs := by
  rw [C43_quoted_word E hL hR s [.dq [.var x]] (by simp [Seg.Ok, DPart.Ok]) (by simp)
    (by simp [Seg.vars, DPart.vars, hx]) (by simpa [Seg.vars, DPart.vars, hx, Fits] using hfit) _
    (writes_quoted_var x)]
  simp only [wordFields, List.foldr_cons, List.foldr_nil, glue_nil_right, Seg.fields, Spec.content, DPart.fields,
    DPart.vars, quotedFields, hx, List.flatMap_cons, List.flatMap_nil, List.append_nil, List.mem_cons,
    List.not_mem_nil, or_false, exists_eq_left]
  by_cases h : vs = []
  · subst h; simp [glue]
  · rw [if_neg (by simp [h]), glue_unit vs h]

/-- **C43**, `"$*"` is one field, the positional parameters joined with the first character of `IFS`. -/
theorem C43_quoted_star {σ : Type} (E : Env σ) (hL : E.locale.Ok) (hR : E.long.Ok) (s : σ) (x : List Char)
    (vs : List (List Char)) (hx : E.get s x = .concat vs) (hfit : (vs.length : Int) ≤ ssizeMax) :
    expandMultiple E [.str ['"'], .param (simpleParam x), .str ['"']] s =
      .ok s [List.intercalate (Spec.separator (E.getvar s "IFS".toList)) vs] := by
  rw [C43_quoted_word E hL hR s [.dq [.var x]] (by simp [Seg.Ok, DPart.Ok]) (by simp)
    (by simp [Seg.vars, DPart.vars, hx]) (by simpa [Seg.vars, DPart.vars, hx, Fits] using hfit) _
    (writes_quoted_var x)]
  generalize E.getvar s "IFS".toList = ifs
  simp [wordFields, Seg.fields, Spec.content, DPart.fields, DPart.vars, quotedFields, hx, glue]

/-- **C43**, an unset variable is an error under `set -u`, in quotes or not. -/
theorem C43_unset_error {σ : Type} (E : Env σ) (s : σ) (x : List Char) (hx : E.get s x = .notFound)
    (hu : E.unsetOk = false) (rest : Word) :
    expandMultiple E (.param (simpleParam x) :: rest) s = .fail s ∧
    expandMultiple E (.str ['"'] :: .param (simpleParam x) :: rest) s = .fail s := by
  have hp : ∀ indq, expandParam E indq (simpleParam x) s = .fail s := by
    intro indq
    simp only [simpleParam, expandParam, List.isEmpty_nil, if_true, bind, M.bind, pure, M.pure, expandBase, hx,
      countsUnset, hu]
    rfl
  constructor
  · simp only [expandMultiple, expandFour, expandUnits, expandUnit, bind, M.bind, hp]
  · simp only [expandMultiple, expandFour, expandUnits, expandUnit, bind, M.bind]
    have : ∀ n, expandString E s .single .word .lit true n {} ['"'] = some (({} : St).dquote .lit) := by
      intro n
      simp [expandString, expandTilde, stringLoop]
    simp only [this, M.check, M.pure, hp]

/-! A shell in which `x` is `a *`, the positional parameters are `p q` and an empty string, and `IFS` is `:`. -/

/-- An environment for examples. -/
def exampleEnv : Env Unit where
  posix := false
  unsetOk := true
  braceexpand := true
  glob := true
  nullglob := true
  emptylast := false
  locale := cLocale
  long := long64
  chars := Fnmatch.asciiLocale
  getvar := fun _ n => if n = "IFS".toList then some [':'] else none
  get := fun _ n =>
    if n = ['x'] then .scalar ['a', ' ', '*']
    else if n = ['@'] then .array [['p', ' ', 'q'], []]
    else if n = ['*'] then .concat [['p', ' ', 'q'], []]
    else .notFound
  dirEntry := fun _ _ => none
  homeOf := fun _ => none
  set := fun s _ _ => (s, true)
  setElement := fun s _ _ _ => (s, true)
  cmdsub := fun s _ => (s, some [])
  arith := fun s _ => (s, some [])
  index := fun s _ => (s, some 1)
  isName := fun _ => true
  wglob := fun _ _ => [['f']]

example : expandMultiple exampleEnv [.str ['"'], .param (simpleParam ['x']), .str ['"']] () = .ok () [['a', ' ', '*']] :=
  C43_quoted_scalar exampleEnv cLocale_ok long64_ok () _ _ rfl
example : expandMultiple exampleEnv [.str ['"'], .param (simpleParam ['@']), .str ['"']] () =
    .ok () [['p', ' ', 'q'], []] :=
  C43_quoted_at exampleEnv cLocale_ok long64_ok () _ [['p', ' ', 'q'], []] rfl (by decide)
example : expandMultiple exampleEnv [.str ['"'], .param (simpleParam ['*']), .str ['"']] () =
    .ok () [['p', ' ', 'q', ':']] :=
  C43_quoted_star exampleEnv cLocale_ok long64_ok () _ [['p', ' ', 'q'], []] rfl (by decide)
/-- `-\*"$@$x"'{'` in two units of text and two of variables. -/
example : expandMultiple exampleEnv [.str ['-', '\\', '*', '"'], .param (simpleParam ['@']), .param (simpleParam ['x']),
      .str ['"', '\'', '{', '\'']] () =
    .ok () [['-', '*', 'p', ' ', 'q'], ['a', ' ', '*', '{']] := by
  have hw : Writes [.chr '-', .bs '*', .dq [.var ['@'], .var ['x']], .sq ['{']]
      [.str ['-', '\\', '*', '"'], .param (simpleParam ['@']), .param (simpleParam ['x']), .str ['"', '\'', '{', '\'']] :=
    .str [['-'], ['\\', '*'], ['"']] _ _ (.unit _ _ _ (.unit _ _ _ (.str [['"'], ['\'', '{', '\'']] _ _ .nil)))
  rw [C43_quoted_word exampleEnv cLocale_ok long64_ok () _ (by simp [Seg.Ok, DPart.Ok]) (by simp) (by simp [exampleEnv])
    (by
      intro x hx
      simp only [List.flatMap_cons, List.flatMap_nil, Seg.vars, DPart.vars, List.nil_append, List.append_nil,
        List.cons_append, List.mem_cons, List.not_mem_nil, or_false] at hx
      rcases hx with rfl | rfl
      · exact (by decide : ((2 : Nat) : Int) ≤ ssizeMax)
      · exact trivial) _ hw]
  simp [wordFields, Seg.fields, Spec.content, DPart.fields, DPart.vars, quotedFields, glue, exampleEnv]
example : expandMultiple { exampleEnv with unsetOk := false } [.param (simpleParam ['y'])] () = .fail () :=
  (C43_unset_error { exampleEnv with unsetOk := false } () ['y'] rfl rfl []).1

/-! ### Outside quotes -/

theorem softWord_removal (e : Escaping) (f : CWord) (h : ∀ c ∈ f, c.2 = { origin := .soft }) :
    quoteRemoval e f = text f := by
  induction f with
  | nil => rfl
  | cons c f ih =>
    obtain ⟨c, cc⟩ := c
    have hc : cc = { origin := .soft } := h (c, cc) List.mem_cons_self
    subst hc
    rw [quoteRemoval, ih fun c hc => h c (List.mem_cons_of_mem _ hc)]
    cases e <;> simp [shouldEscape]

theorem pieces_mem {sep : CChar → Prop} {w : CWord} {fs : List CWord} (h : Spec.Pieces sep w fs) :
    ∀ f ∈ fs, ∀ c ∈ f, c ∈ w := by
  induction h with
  | done => simp
  | field s f rest fs _ _ _ ih =>
    intro g hg c hc
    rcases List.mem_cons.1 hg with rfl | hg
    · simp [hc]
    · simp [ih g hg c hc]

/-- **C43**, a variable outside quotes: every value is split at `IFS` characters, and every field undergoes
pathname expansion.  No brace expansion takes place. -/
theorem C43_unquoted_variable {σ : Type} (E : Env σ) (hL : E.locale.Ok) (hR : E.long.Ok) (s : σ) (x : List Char)
    (hset : E.get s x ≠ .notFound ∨ E.unsetOk = true) (hfit : Fits (E.get s x)) :
    expandMultiple E [.param (simpleParam x)] s = .ok s
      ((Spec.unquotedValues (E.get s x)).flatMap fun v =>
        (Spec.fields E.locale.space E.emptylast ((E.getvar s "IFS".toList).getD [' ', '\t', '\n'])
          (Spec.softWord v)).flatMap fun f =>
            Spec.pathnames E.glob E.nullglob (Fnmatch.isPathnameMatchingPattern [] (text f)) (E.wglob s (text f)) (text f)) := by
  have hfour : expandFour E .single .word .lit [.param (simpleParam x)] s =
      .ok s ((Spec.unquotedValues (E.get s x)).map Spec.softWord) := by
    simp only [expandFour, expandUnits, expandUnit, bind, M.bind]
    have := expandParam_simple E s x (({} : St).indq || decide (Quoting.word = .literal) || CC.lit.quoted) hset hfit
    rw [this]
    simp only [pure, M.pure]
    have hvw : varWords E s (({} : St).indq || decide (Quoting.word = .literal) || CC.lit.quoted) x =
        (Spec.unquotedValues (E.get s x)).map Spec.softWord := by
      simp [varWords, markValues, Spec.softWord]
    rw [hvw]
    congr 1
    generalize Spec.unquotedValues (E.get s x) = vs
    match vs with
    | [] => rfl
    | [v] => simp [St.noFields, St.merge, St.finish]
    | v :: v' :: vs =>
      simp only [List.map_cons, St.noFields, List.isEmpty_cons, St.merge, St.finish]
      simp only [Bool.false_eq_true, if_false, Bool.false_and, List.nil_append]
      rw [List.cons_append, List.dropLast_concat_getLast]
  simp only [expandMultiple, bind, M.bind, hfour]
  have hb : (if E.braceexpand then expandBraceEach E.locale E.long ((Spec.unquotedValues (E.get s x)).map Spec.softWord)
      else some ((Spec.unquotedValues (E.get s x)).map Spec.softWord)) =
      some ((Spec.unquotedValues (E.get s x)).map Spec.softWord) := by
    split
    · generalize Spec.unquotedValues (E.get s x) = vs
      rw [expandBraceEach]
      induction vs with
      | nil => rfl
      | cons v vs ih =>
        rw [List.map_cons, collect, C16_quoted_braces_unchanged hL hR, ih]
        · rfl
        · intro c hc
          simp only [Spec.softWord, List.mem_map] at hc
          obtain ⟨a, _, rfl⟩ := hc
          simp [Spec.lit]
    · rfl
  rw [hb]
  simp only [M.check, M.pure, pure, M.get]
  congr 1
  rw [C14_fieldsplit_list, List.flatMap_map, List.flatMap_assoc]
  congr 1
  funext v
  rw [← C14_fieldsplit_spec]
  have hp := C15_fieldsplit_pieces E.locale E.emptylast ((E.getvar s "IFS".toList).getD [' ', '\t', '\n']) (Spec.softWord v)
  generalize fieldsplit1 E.locale E.emptylast ((E.getvar s "IFS".toList).getD [' ', '\t', '\n']) (Spec.softWord v) = fs at hp
  have hsoft : ∀ f ∈ fs, ∀ c ∈ f, c.2 = ({ origin := .soft } : CC) := by
    intro f hf c hc
    have := pieces_mem hp f hf c hc
    simp only [Spec.softWord, List.mem_map] at this
    obtain ⟨a, _, rfl⟩ := this
    rfl
  clear hp
  induction fs with
  | nil => rfl
  | cons f fs ih =>
    rw [List.flatMap_cons, List.flatMap_cons, ih fun f hf => hsoft f (List.mem_cons_of_mem _ hf)]
    congr 1
    have hf := hsoft f List.mem_cons_self
    simp only [globField, softWord_removal _ f hf, Spec.pathnames]
    cases E.glob <;> cases Fnmatch.isPathnameMatchingPattern [] (text f) <;> cases E.nullglob <;>
      cases E.wglob s (text f) <;> simp

end Yash.Expand
