import Verif.Fnmatch.Literal
import Verif.Fnmatch.Plain
/-!
# C18, C19, C20, C38: pattern matching

* `Reads pat as` (in `Spec`) is how POSIX reads a pattern, `Matches` which strings it matches, and
  `Finds` which part of a string is searched for.
* The theorems are about `xfnm_compile`, `xfnm_wmatch`, `xfnm_match`, `xfnm_subst`,
  `match_pattern`, `match_each`, `subst_each`, `is_matching_pattern` and
  `is_pathname_matching_pattern`.
-/
set_option autoImplicit false

namespace Yash.Fnmatch

open Spec (Tok Atom Items Bracket Reads isKind unquoted Plausible PlausiblePattern Matches
  MatchesAt Accepts Goal Finds SubstAll SubstOne Trim Component)

variable (loc : Locale)

/-! ## Compilation -/

theorem finds_unique {icase : Bool} {g : Goal} {as : List Atom} {s : List Char}
    {r r' : Option (Nat × Nat)} (hg : g ≠ .whole) (h : Finds loc icase g as s r)
    (h' : Finds loc icase g as s r') : r = r' := by
  cases r with
  | none =>
    cases r' with
    | none => rfl
    | some q => exact absurd h'.2.1 (h q.1 q.2 h'.1)
  | some p =>
    cases r' with
    | none => exact absurd h.2.1 (h' p.1 p.2 h.1)
    | some q =>
      obtain ⟨i, j⟩ := p
      obtain ⟨i', j'⟩ := q
      obtain ⟨h1, h2, h3⟩ := h
      obtain ⟨h1', h2', h3'⟩ := h'
      have a := h3 i' j' h1' h2'
      have b := h3' i j h1 h2
      cases g <;> simp only [Goal.Eligible, Goal.Better] at * <;> first
        | (exact absurd rfl hg)
        | exact congrArg some (Prod.ext (by simp only; omega) (by simp only; omega))

theorem wmatchHeadtail_isSome (re : Regex) (s : List Char) :
    (wmatchHeadtail loc re s).isSome = (regexec loc re s).isSome := by
  unfold wmatchHeadtail
  split <;> simp_all

theorem regex_finds {as : List Atom} (hk : Kinds as) {g : Goal} {p cf : Bool} (s : List Char)
    (hb : (p && s.head? == some '.') = false) :
    (g ≠ .whole → Finds loc cf g as s (xfnmWmatch loc (.regex (goalFlags g p cf)
      ⟨(goalFlags g p cf).headonly, as.map tr, (goalFlags g p cf).tailonly, cf⟩) s)) ∧
    (g = .whole → ((xfnmWmatch loc (.regex (goalFlags g p cf)
      ⟨(goalFlags g p cf).headonly, as.map tr, (goalFlags g p cf).tailonly, cf⟩) s).isSome = true ↔
        Matches loc cf as s)) := by
  have e : (goalFlags g p cf).period = p := by cases g <;> rfl
  unfold xfnmWmatch
  simp only [e, hb]
  constructor
  · intro hg
    cases g with
    | whole => exact absurd rfl hg
    | shortestPrefix => simpa [goalFlags] using shortest_prefix loc hk s
    | longestPrefix => simpa [goalFlags] using longest_prefix loc hk s
    | shortestSuffix => simpa [goalFlags] using shortest_suffix loc hk s
    | longestSuffix => simpa [goalFlags] using longest_suffix loc hk s
    | leftmost => simpa [goalFlags] using longest_leftmost loc hk s
  · rintro rfl
    rw [← headtail_iff loc (icase := cf) hk s]
    exact iff_of_eq (congrArg (· = true) (wmatchHeadtail_isSome loc _ s))

theorem literal_period {pat : List Char} {g : Goal} {p cf : Bool} {f : Flags} {lit : List Char}
    (h : tryCompileLiteral pat (goalFlags g p cf) = some (f, lit)) : f.period = p := by
  unfold tryCompileLiteral at h
  dsimp only at h
  split at h
  · cases h
  · simp only [Option.some.injEq, Prod.mk.injEq] at h
    rw [← h.1]
    have e : (goalFlags g p cf).period = p := by cases g <;> rfl
    repeat' split
    all_goals exact e

theorem literal_plausible {pat : List Char} {as : List Atom} (hr : Reads pat as) {f f' : Flags}
    {lit : List Char} (h : tryCompileLiteral pat f = some (f', lit)) : PlausiblePattern as := by
  obtain ⟨k, m, ts, rfl, -, -⟩ := tryCompileLiteral_reads hr h
  have h1 : PlausiblePattern (List.replicate m Atom.star) := by
    clear h hr
    induction m with
    | zero => trivial
    | succ m ih => exact ih
  have h2 : PlausiblePattern (lit.map Atom.lit ++ List.replicate m Atom.star) := by
    clear h hr
    induction lit with
    | nil => exact h1
    | cons c l ih => exact ih
  clear h hr
  induction k with
  | zero => exact h2
  | succ k ih => exact ih

/-- The pattern begins with a period or a quoted character. -/
def explicitStart (pat : List Char) : Bool := pat.head? == some '.' || pat.head? == some '\\'

theorem compile_finds {pat : List Char} {as : List Atom} (hr : Reads pat as)
    (hp : PlausiblePattern as) (g : Goal) (p cf : Bool) :
    ∃ x, xfnmCompile pat (goalFlags g p cf) = some x ∧ ∀ s : List Char,
      if (p && !explicitStart pat && s.head? == some '.') = true then
        xfnmWmatch loc x s = none ∧ xfnmMatch loc x s = false
      else
        (g ≠ .whole → Finds loc cf g as s (xfnmWmatch loc x s)) ∧
        (g = .whole → ((xfnmWmatch loc x s).isSome = true ↔ Matches loc cf as s) ∧
          (xfnmMatch loc x s = true ↔ Matches loc cf as s)) := by
  have hk := reads_kinds hr
  have e : (if (goalFlags g p cf).period && (pat.head? == some '.' || pat.head? == some '\\') then
      { goalFlags g p cf with period := false } else goalFlags g p cf)
      = goalFlags g (p && !explicitStart pat) cf := by
    have e1 : (goalFlags g p cf).period = p := by cases g <;> rfl
    rw [e1]
    unfold explicitStart
    cases p <;> cases (pat.head? == some '.' || pat.head? == some '\\') <;> cases g <;> rfl
  have ecf : ∀ q, (goalFlags g q cf).casefold = cf := by intro q; cases g <;> rfl
  have hreg : ∀ q : Bool, ∃ x, tryCompileRegex pat (goalFlags g q cf) = some x ∧ ∀ s : List Char,
      if (q && s.head? == some '.') = true then
        xfnmWmatch loc x s = none ∧ xfnmMatch loc x s = false
      else
        (g ≠ .whole → Finds loc cf g as s (xfnmWmatch loc x s)) ∧
        (g = .whole → ((xfnmWmatch loc x s).isSome = true ↔ Matches loc cf as s) ∧
          (xfnmMatch loc x s = true ↔ Matches loc cf as s)) := by
    intro q
    have e1 : (goalFlags g q cf).period = q := by cases g <;> rfl
    refine ⟨_, compile_read hr hp _, ?_⟩
    intro s
    split
    · rename_i hb
      unfold xfnmMatch xfnmWmatch
      simp only [e1, hb, if_true, and_self]
    · rename_i hb
      rw [Bool.not_eq_true] at hb
      have := regex_finds loc hk (g := g) (p := q) (cf := cf) s hb
      rw [ecf]
      refine ⟨this.1, fun hg => ⟨this.2 hg, ?_⟩⟩
      subst hg
      unfold xfnmMatch
      simp only [e1, hb]
      rw [← headtail_iff loc (icase := cf) hk s]
      simp [goalFlags]
  unfold xfnmCompile
  dsimp only
  rw [e, ecf]
  generalize hq : (p && !explicitStart pat) = q
  cases cf with
  | true => exact hreg q
  | false =>
    simp only [Bool.false_eq_true, if_false]
    cases hl : tryCompileLiteral pat (goalFlags g q false) with
    | none => exact hreg q
    | some fl =>
      obtain ⟨f, lit⟩ := fl
      refine ⟨_, rfl, ?_⟩
      intro s
      have e1 := literal_period hl
      split
      · rename_i hb
        unfold xfnmMatch xfnmWmatch
        simp only [e1, hb, if_true, and_self]
      · rename_i hb
        rw [Bool.not_eq_true] at hb
        have := literal_finds loc hr hl s
        have ew : xfnmWmatch loc (.literal f lit) s = wmatchLiteral f lit s := by
          unfold xfnmWmatch
          simp only [e1, hb, Bool.false_eq_true, if_false]
        have em : xfnmMatch loc (.literal f lit) s = (wmatchLiteral f lit s).isSome := by
          unfold xfnmMatch
          simp only [e1, hb, Bool.false_eq_true, if_false, ew]
        rw [ew, em]
        exact ⟨this.1, fun hg => ⟨this.2 hg, this.2 hg⟩⟩

/-! ## C18 -/

/-- **C18.** Whenever a pattern is compiled to a literal, it is also compiled to a regular
expression, and matching with either gives the same result on every string. -/
theorem C18_literal (pat : List Char) (g : Goal) (period : Bool) (f : Flags) (lit : List Char)
    (h : tryCompileLiteral pat (goalFlags g period false) = some (f, lit)) :
    ∃ x, tryCompileRegex pat (goalFlags g period false) = some x ∧ ∀ s,
      (g ≠ .whole → xfnmWmatch loc (.literal f lit) s = xfnmWmatch loc x s) ∧
      (xfnmWmatch loc (.literal f lit) s).isSome = (xfnmWmatch loc x s).isSome := by
  obtain ⟨as, hr⟩ := reads_total pat.length pat (Nat.le_refl _)
  have hp := literal_plausible hr h
  have hk := reads_kinds hr
  refine ⟨_, compile_read hr hp _, ?_⟩
  intro s
  have e1 := literal_period h
  have e2 : (goalFlags g period false).period = period := by cases g <;> rfl
  have e3 : (goalFlags g period false).casefold = false := by cases g <;> rfl
  by_cases hb : (period && s.head? == some '.') = true
  · unfold xfnmWmatch
    simp [e1, e2, hb]
  · rw [Bool.not_eq_true] at hb
    have hl := literal_finds loc hr h s
    have hx := regex_finds loc hk (g := g) (p := period) (cf := false) s hb
    have ew : xfnmWmatch loc (.literal f lit) s = wmatchLiteral f lit s := by
      unfold xfnmWmatch
      simp only [e1, hb, Bool.false_eq_true, if_false]
    rw [ew, e3]
    by_cases hg : g = .whole
    · refine ⟨fun h => absurd hg h, ?_⟩
      rw [Bool.eq_iff_iff, hl.2 hg, hx.2 hg]
    · have := finds_unique loc hg (hl.1 hg) (hx.1 hg)
      exact ⟨fun _ => this, by rw [this]⟩

/-- **C18.** A pattern that is compiled to a literal finds the part of the string that the pattern,
as POSIX reads it, is to find. -/
theorem C18_semantics (pat : List Char) (as : List Atom) (hr : Reads pat as) (g : Goal)
    (f : Flags) (lit : List Char)
    (h : tryCompileLiteral pat (goalFlags g false false) = some (f, lit)) (s : List Char) :
    xfnmCompile pat (goalFlags g false false) = some (.literal f lit) ∧
    (g ≠ .whole → Finds loc false g as s (xfnmWmatch loc (.literal f lit) s)) ∧
    (g = .whole → ((xfnmWmatch loc (.literal f lit) s).isSome = true ↔ Matches loc false as s)) := by
  have e1 := literal_period h
  have ew : xfnmWmatch loc (.literal f lit) s = wmatchLiteral f lit s := by
    unfold xfnmWmatch
    simp only [e1, Bool.false_and, Bool.false_eq_true, if_false]
  rw [ew]
  refine ⟨?_, literal_finds loc hr h s⟩
  have e2 : (goalFlags g false false).period = false := by cases g <;> rfl
  have e3 : (goalFlags g false false).casefold = false := by cases g <;> rfl
  unfold xfnmCompile
  simp only [e2, e3, Bool.false_and, Bool.false_eq_true, if_false, h]

/-! ## C19

What is missing from the theorems: `PlausiblePattern` excludes bracket expressions in which a
quoted character takes part in opening or closing a symbol, as in `[[\\.]` and `[[\\:alpha:]]`, for
which the property does not hold (`C19_quoted_period`, `C19_quoted_class`). -/

/-- Every pattern can be read. -/
theorem C19_total (pat : List Char) : ∃ as, Reads pat as :=
  reads_total pat.length pat (Nat.le_refl _)

/-- **C19.** A pattern is compiled successfully, and what is found with it is the part of the
string that the pattern, as POSIX reads it, is to find. -/
theorem C19_search_partial (pat : List Char) (as : List Atom) (hr : Reads pat as)
    (hp : PlausiblePattern as) (g : Goal) (hg : g ≠ .whole) (casefold : Bool) :
    ∃ x, xfnmCompile pat (goalFlags g false casefold) = some x ∧
      ∀ s, Finds loc casefold g as s (xfnmWmatch loc x s) := by
  obtain ⟨x, hx, h⟩ := compile_finds loc hr hp g false casefold
  exact ⟨x, hx, fun s => (h s).1 hg⟩

/-- **C19.** A pattern matches exactly the strings that it matches as POSIX reads it, both in a
`case` command and in a pathname. -/
theorem C19_match_partial (pat : List Char) (as : List Atom) (hr : Reads pat as)
    (hp : PlausiblePattern as) (casefold : Bool) :
    ∃ x, xfnmCompile pat (goalFlags .whole false casefold) = some x ∧ ∀ s,
      ((xfnmWmatch loc x s).isSome = true ↔ Matches loc casefold as s) ∧
      (xfnmMatch loc x s = true ↔ Matches loc casefold as s) := by
  obtain ⟨x, hx, h⟩ := compile_finds loc hr hp .whole false casefold
  exact ⟨x, hx, fun s => (h s).2 rfl⟩

theorem C19_case_partial (pat : List Char) (as : List Atom) (hr : Reads pat as)
    (hp : PlausiblePattern as) (s : List Char) :
    matchPattern loc s pat = true ↔ Matches loc false as s := by
  obtain ⟨x, hx, h⟩ := C19_match_partial loc pat as hr hp false
  unfold matchPattern
  have e : ({ headonly := true, tailonly := true } : Flags) = goalFlags .whole false false := rfl
  rw [e, hx]
  exact (h s).1

/-- **C19.** In pathname expansion, a period at the beginning of a name is matched only by a period
at the beginning of the pattern. -/
theorem C19_period_partial (pat : List Char) (as : List Atom) (hr : Reads pat as)
    (hp : PlausiblePattern as) (casefold : Bool)
    (hdot : ∀ c, loc.same c '.' = true → c = '.') :
    ∃ x, xfnmCompile pat (goalFlags .whole true casefold) = some x ∧ ∀ s,
      (xfnmMatch loc x s = true ↔ Matches loc casefold as s ∧
        ∀ s', s = '.' :: s' → ∃ as', as = .lit '.' :: as') := by
  obtain ⟨x, hx, h⟩ := compile_finds loc hr hp .whole true casefold
  refine ⟨x, hx, ?_⟩
  intro s
  have h := h s
  split at h
  · rename_i hb
    simp only [Bool.true_and, Bool.and_eq_true, Bool.not_eq_true', beq_iff_eq] at hb
    rw [h.2]
    simp only [Bool.false_eq_true, false_iff]
    rintro ⟨-, hd⟩
    obtain ⟨s', rfl⟩ : ∃ s', s = '.' :: s' := by
      cases s with
      | nil => simp at hb
      | cons c s => simp at hb; exact ⟨s, by rw [hb.2]⟩
    obtain ⟨as', rfl⟩ := hd s' rfl
    have hb := hb.1
    unfold explicitStart at hb
    cases hr <;> simp_all
  · rename_i hb
    have h := (h.2 rfl).2
    rw [h]
    refine ⟨fun hm => ⟨hm, ?_⟩, fun hm => hm.1⟩
    rintro s' rfl
    have hb : explicitStart pat = true := by simpa using hb
    have key : ∀ c as', Matches loc casefold (.lit c :: as') ('.' :: s') → c = '.' := by
      intro c as' hm
      rcases matches_cons loc hm with ⟨h, -⟩ | ⟨d, s'', he, ha, -⟩
      · cases h
      · simp only [List.cons.injEq] at he
        rw [← he.1] at ha
        unfold Accepts at ha
        cases casefold with
        | true => exact hdot c ha
        | false => simpa using ha
    unfold explicitStart at hb
    cases hr with
    | nil => simp at hb
    | any => simp at hb
    | star => simp at hb
    | backslash => cases hm
    | quoted c s as => rw [key c as hm]; exact ⟨as, rfl⟩
    | set => simp at hb
    | noSet => simp at hb
    | plain c s as =>  rw [key c as hm]; exact ⟨as, rfl⟩

/-! ## C38 -/

/-- **C38.** A word that is not regarded as a pattern matches only its own text. -/
theorem C38_plain (pat : List Char) (h : isMatchingPattern pat = false) (as : List Atom)
    (hr : Reads pat as) : ∀ s, Matches loc false as s ↔ s = unquoted pat := by
  intro s
  rw [plain_reads hr h]
  have := matches_literal loc (unquoted pat) [] s
  rw [List.append_nil] at this
  rw [this]
  constructor
  · rintro ⟨v, rfl, hv⟩
    cases hv
    simp
  · rintro rfl
    exact ⟨[], by simp, .nil⟩

/-- **C38.** If a word is not regarded as a pathname pattern, every component of it matches only
its own text. -/
theorem C38_pathname (pat : List Char) (h : isPathnameMatchingPattern [] pat = false)
    (comp : List Char) (hc : Component pat comp) (as : List Atom) (hr : Reads comp as) :
    ∀ s, Matches loc false as s ↔ s = unquoted comp :=
  C38_plain loc comp (pathname_components pat [] (by simp) h comp hc) as hr

/-! ## C20 -/

theorem trim_aux {pat : List Char} {head tail longest : Bool} {g : Goal} {as : List Atom}
    {s : List Char}
    (h : ∃ y, xfnmCompile pat { headonly := head, tailonly := tail, shortest := !longest } = some y ∧
      ∀ s, Finds loc false g as s (xfnmWmatch loc y s)) :
    Trim loc g as s (matchEach loc pat head tail longest s) := by
  obtain ⟨y, hy, h⟩ := h
  refine ⟨_, h s, ?_⟩
  have h2 := h s
  unfold matchEach
  rw [hy]
  dsimp only
  cases hw : xfnmWmatch loc y s with
  | none => rfl
  | some p =>
    obtain ⟨a, b⟩ := p
    rw [hw] at h2
    have := h2.2.1.1
    simp only
    rw [show a + (b - a) = b from by omega]

/-- **C20.** `${x#p}`, `${x##p}`, `${x%p}` and `${x%%p}` remove the shortest or the longest
matching prefix or suffix. -/
theorem C20_trim (pat : List Char) (as : List Atom) (hr : Reads pat as)
    (hp : PlausiblePattern as) (s : List Char) :
    Trim loc .shortestPrefix as s (matchEach loc pat true false false s) ∧
    Trim loc .longestPrefix as s (matchEach loc pat true false true s) ∧
    Trim loc .shortestSuffix as s (matchEach loc pat false true false s) ∧
    Trim loc .longestSuffix as s (matchEach loc pat false true true s) := by
  refine ⟨?_, ?_, ?_, ?_⟩
  · exact trim_aux loc (C19_search_partial loc pat as hr hp .shortestPrefix (by decide) false)
  · exact trim_aux loc (C19_search_partial loc pat as hr hp .longestPrefix (by decide) false)
  · exact trim_aux loc (C19_search_partial loc pat as hr hp .shortestSuffix (by decide) false)
  · exact trim_aux loc (C19_search_partial loc pat as hr hp .longestSuffix (by decide) false)

theorem compile_flags {pat : List Char} {f : Flags} {x : Compiled} (h : xfnmCompile pat f = some x) :
    (x.flags.headonly = true → f.headonly = true) ∧ (x.flags.tailonly = true → f.tailonly = true) := by
  have hreg : ∀ f, tryCompileRegex pat f = some x → x.flags = f := by
    intro f h
    unfold tryCompileRegex at h
    dsimp only at h
    split at h
    · simp only [Option.some.injEq] at h; rw [← h]; rfl
    · cases h
  have hflag : ∀ f', (f' = f ∨ f' = { f with period := false }) →
      f'.headonly = f.headonly ∧ f'.tailonly = f.tailonly := by
    rintro f' (rfl | rfl) <;> simp
  unfold xfnmCompile at h
  dsimp only at h
  generalize hf' : (if (f.period && (pat.head? == some '.' || pat.head? == some '\\')) = true then
    { f with period := false } else f) = f' at h
  have hff := hflag f' (by rw [← hf']; split <;> simp)
  rw [← hff.1, ← hff.2]
  split at h
  · rw [hreg f' h]; exact ⟨id, id⟩
  · split at h
    · rename_i f'' lit hl
      simp only [Option.some.injEq] at h
      rw [← h]
      unfold tryCompileLiteral at hl
      dsimp only at hl
      split at hl
      · cases hl
      · rename_i l0 ts heq
        clear heq
        simp only [Option.some.injEq, Prod.mk.injEq] at hl
        simp only [Compiled.flags]
        rw [← hl.1]
        clear hl h hff hf' hflag hreg
        obtain ⟨b1, b2, b3, b4, b5, b6, b7⟩ := f'
        cases (pat.head? == some '*') <;> cases ts <;> cases b1 <;> cases b2 <;> cases b3 <;> simp
    · rw [hreg f' h]; exact ⟨id, id⟩

theorem substLoop_one {x : Compiled} {g : Goal} {as : List Atom} {repl s : List Char} {n : Nat}
    (h : Finds loc false g as s (xfnmWmatch loc x s)) :
    SubstOne loc g as repl s (substLoop loc x repl false (n + 1) s) := by
  refine ⟨_, h, ?_⟩
  rw [substLoop]
  cases xfnmWmatch loc x s with
  | none => rfl
  | some p =>
    obtain ⟨a, b⟩ := p
    simp only [Bool.false_eq_true, if_false]
    by_cases hab : a < b
    · rw [if_pos hab, if_neg (by omega)]
    · rw [if_neg hab, if_pos (by omega)]

theorem substLoop_all {x : Compiled} {as : List Atom} {repl : List Char}
    (h : ∀ s, Finds loc false .leftmost as s (xfnmWmatch loc x s)) :
    ∀ (n : Nat) (s : List Char), s.length < n →
      SubstAll loc as repl s (substLoop loc x repl true n s) := by
  intro n
  induction n with
  | zero => intro s hs; omega
  | succ n ih =>
    intro s hs
    have hf := h s
    rw [substLoop]
    cases hw : xfnmWmatch loc x s with
    | none =>
      rw [hw] at hf
      exact .done s none hf (by simp)
    | some p =>
      obtain ⟨a, b⟩ := p
      rw [hw] at hf
      have hab := hf.2.1.1
      have hbl := hf.2.1.2.1
      simp only [if_true]
      by_cases hlt : a < b
      · rw [if_neg (by omega)]
        exact .step s a b _ hf hlt (ih _ (by simp; omega))
      · rw [if_pos (by omega)]
        refine .done s _ hf ?_
        intro i j he
        simp only [Option.some.injEq, Prod.mk.injEq] at he
        omega

/-- **C20.** `${x/p/r}`, `${x/#p/r}` and `${x/%p/r}` replace the leftmost longest match, the
longest matching prefix and the longest matching suffix; an empty match is not replaced. -/
theorem C20_subst (pat : List Char) (as : List Atom) (hr : Reads pat as)
    (hp : PlausiblePattern as) (repl s : List Char) :
    SubstOne loc .leftmost as repl s (substEach loc pat repl false false false s) ∧
    SubstOne loc .longestPrefix as repl s (substEach loc pat repl true false false s) ∧
    SubstOne loc .longestSuffix as repl s (substEach loc pat repl false true false s) := by
  have key : ∀ g head tail, g ≠ .whole → (head && tail) = false →
      ({ headonly := head, tailonly := tail } : Flags) = goalFlags g false false →
      SubstOne loc g as repl s (substEach loc pat repl head tail false s) := by
    intro g head tail hg hht hf
    obtain ⟨x, hx, h⟩ := C19_search_partial loc pat as hr hp g hg false
    unfold substEach
    rw [hf, hx]
    have hfl := compile_flags hx
    rw [← hf] at hfl
    simp only at hfl
    unfold xfnmSubst
    dsimp only
    rw [if_neg]
    · simp only [Bool.false_and]
      exact substLoop_one loc (h s)
    · intro hb
      rw [Bool.and_eq_true] at hb
      rw [hfl.1 hb.1, hfl.2 hb.2] at hht
      cases hht
  exact ⟨key _ _ _ (by decide) rfl rfl, key _ _ _ (by decide) rfl rfl, key _ _ _ (by decide) rfl rfl⟩

/-- **C20.** `${x//p/r}` replaces every match from left to right. -/
theorem C20_substAll (pat : List Char) (as : List Atom) (hr : Reads pat as)
    (hp : PlausiblePattern as) (repl s : List Char) :
    SubstAll loc as repl s (substEach loc pat repl false false true s) := by
  obtain ⟨x, hx, h⟩ := C19_search_partial loc pat as hr hp .leftmost (by decide) false
  have hx' : xfnmCompile pat { headonly := false, tailonly := false } = some x := hx
  unfold substEach
  rw [hx']
  have hfl := compile_flags hx'
  have hh : x.flags.headonly = false := by
    rw [← Bool.not_eq_true]; intro hc; exact absurd (hfl.1 hc) (by simp)
  unfold xfnmSubst
  simp only [hh, Bool.false_and, Bool.false_eq_true, if_false, Bool.not_false, Bool.and_true]
  exact substLoop_all loc h _ s (by omega)

/-- **C20.** `${x:/p/r}` replaces the whole value if the pattern matches it.  What is missing: a
pattern that begins with an asterisk matches the empty string, but then the value is not replaced
(`C20_whole_empty`). -/
theorem C20_whole_partial (pat : List Char) (as : List Atom) (hr : Reads pat as)
    (hp : PlausiblePattern as) (repl s : List Char) (hs : s ≠ [] ∨ as.head? ≠ some .star) :
    (Matches loc false as s → substEach loc pat repl true true false s = repl) ∧
    (¬ Matches loc false as s → substEach loc pat repl true true false s = s) := by
  have hk := reads_kinds hr
  have e : ({ headonly := true, tailonly := true } : Flags) = goalFlags .whole false false := rfl
  unfold substEach
  rw [e]
  cases hl : tryCompileLiteral pat (goalFlags .whole false false) with
  | none =>
    have hx : xfnmCompile pat (goalFlags .whole false false)
        = tryCompileRegex pat (goalFlags .whole false false) := by
      unfold xfnmCompile
      simp only [goalFlags, Bool.false_and, Bool.false_eq_true, if_false] at hl ⊢
      rw [hl]
    rw [hx, compile_read hr hp]
    have h2 := headtail_iff loc (icase := false) hk s
    rw [← wmatchHeadtail_isSome] at h2
    show (_ → (if (wmatchHeadtail loc ⟨true, as.map tr, true, false⟩ s).isSome = true
        then repl else s) = repl) ∧
      (_ → (if (wmatchHeadtail loc ⟨true, as.map tr, true, false⟩ s).isSome = true
        then repl else s) = s)
    constructor
    · intro hm
      rw [if_pos (h2.mpr hm)]
    · intro hm
      rw [if_neg (fun h => hm (h2.mp h))]
  | some fl =>
    obtain ⟨f, lit⟩ := fl
    have hx : xfnmCompile pat (goalFlags .whole false false) = some (.literal f lit) := by
      unfold xfnmCompile
      simp only [goalFlags, Bool.false_and, Bool.false_eq_true, if_false] at hl ⊢
      rw [hl]
    rw [hx]
    have hper := literal_period hl
    have hm := (literal_finds loc hr hl s).2 rfl
    have ew : xfnmWmatch loc (.literal f lit) s = wmatchLiteral f lit s := by
      unfold xfnmWmatch
      simp only [hper, Bool.false_and, Bool.false_eq_true, if_false]
    -- the result, if any, spans the whole string
    have hspan : ∀ a b, (f.headonly && f.tailonly) = false → wmatchLiteral f lit s = some (a, b) →
        a = 0 ∧ b = s.length ∧ s ≠ [] := by
      obtain ⟨k, m, ts, ha, hts, hf⟩ := tryCompileLiteral_reads hr hl
      intro a b hht hw
      have hne : ∀ p, Occ lit s p → (0 < k ∨ 0 < m) → s ≠ [] := by
        rintro p ho hkm rfl
        have h0 := occ_le ho
        have hlit : lit = [] := by
          apply List.eq_nil_of_length_eq_zero
          simp only [List.length_nil] at h0
          omega
        rcases hs with h | h
        · exact h rfl
        · rw [ha, hlit] at h
          cases k with
          | succ k => simp [List.replicate_succ] at h
          | zero =>
            cases m with
            | succ m => simp [List.replicate_succ] at h
            | zero => omega
      by_cases hk : 0 < k <;> by_cases hm : 0 < m <;>
        (have ht := hts; simp only [hm, iff_true, iff_false, Bool.not_eq_true] at ht; subst ht) <;>
        simp [goalFlags, hk] at hf
      · rcases wmatchLiteral_mid (lit := lit) (s := s) (f := f) (by rw [hf]) (by rw [hf]) with
          ⟨h1, h2⟩ | ⟨p, h1, h2, h3⟩
        · rw [h1] at hw; cases hw
        · rw [h3, hf] at hw
          simp at hw
          exact ⟨hw.1.symm, hw.2.symm, hne p h1 (Or.inl hk)⟩
      · rcases wmatchLiteral_tail (lit := lit) (s := s) (f := f) (by rw [hf]) (by rw [hf]) with
          ⟨h1, h2⟩ | ⟨p, h1, h2, h3⟩
        · rw [h1] at hw; cases hw
        · rw [h3, hf] at hw
          simp at hw
          exact ⟨hw.1.symm, hw.2.symm, hne p h1 (Or.inl hk)⟩
      · rcases wmatchLiteral_head (lit := lit) (s := s) (f := f) (by rw [hf]) with
          ⟨h1, h2⟩ | ⟨h1, h2, h3⟩
        · rw [h1] at hw; cases hw
        · rw [h3, hf] at hw
          simp at hw
          exact ⟨hw.1.symm, hw.2.symm, hne 0 h1 (Or.inr hm)⟩
      · rw [hf] at hht
        simp at hht
    have es : xfnmSubst loc (.literal f lit) s repl false =
        if (f.headonly && f.tailonly) = true then
          (if (wmatchLiteral f lit s).isSome = true then repl else s)
        else substLoop loc (.literal f lit) repl (false && !f.headonly) (s.length + 1) s := rfl
    dsimp only
    rw [es]
    by_cases hht : (f.headonly && f.tailonly) = true
    · rw [if_pos hht]
      constructor
      · intro h; rw [if_pos (hm.mpr h)]
      · intro h; rw [if_neg (fun h' => h (hm.mp h'))]
    · rw [if_neg hht]
      rw [Bool.not_eq_true] at hht
      simp only [Bool.false_eq_true, if_false, Bool.false_and, substLoop, ew]
      cases hw : wmatchLiteral f lit s with
      | none =>
        rw [hw] at hm
        simp only [Option.isSome_none, Bool.false_eq_true, false_iff] at hm
        exact ⟨fun h => absurd h hm, fun _ => rfl⟩
      | some q =>
        obtain ⟨a, b⟩ := q
        rw [hw] at hm
        simp only [Option.isSome_some, true_iff] at hm
        obtain ⟨rfl, rfl, hne⟩ := hspan a b hht hw
        refine ⟨fun _ => ?_, fun h => absurd hm h⟩
        have : 0 < s.length := List.length_pos_iff.mpr hne
        simp only
        rw [if_neg (by omega)]
        simp

/-! ## Where the code departs from the properties -/

/-- A locale with the ASCII characters. -/
def asciiLocale : Locale where
  same c d := c == d || (c.isAlpha && d.isAlpha && c.toLower == d.toLower)
  member _ neg items c := neg != inItems c items
where
  inItems (c : Char) : List Item → Bool
    | .point [a] :: .dash :: .point [b] :: r => (a ≤ c && c ≤ b) || inItems c r
    | .point t :: r => t == [c] || inItems c r
    | .equivalence t :: r => t == [c] || inItems c r
    | .charClass t :: r => (t == "alpha".toList && c.isAlpha) || inItems c r
    | .dash :: r => c == '-' || inItems c r
    | [] => false

/-- Finding: the pattern `*` matches the empty string, but `${x:/*/y}` leaves an empty value as it
is. -/
theorem C20_whole_empty :
    Matches loc false [.star] [] ∧ Reads ['*'] [.star] ∧
    substEach loc ['*'] ['y'] true true false [] = [] :=
  ⟨.star [] [] [] .nil, .star _ _ .nil, by rfl⟩

/-- The reading of `[[\.]`: an opening bracket or a period. -/
theorem reads_quotedPeriod :
    Reads ['[', '[', '\\', '.', ']'] [.set false [.plain '[', .quoted '.']] :=
  .set ['[', '\\', '.', ']'] [] false _ _
    (.items '[' _ _ (by decide) (by decide) (by decide)
      (.bracket _ _ (by intro k r h; cases h; simp [isKind]) (.quoted '.' _ _ .close))) .nil

/-- Finding: the quotation in `[[\.]` is lost, so that the regular expression is not valid and the
pattern cannot be used. -/
theorem C19_quoted_period :
    Reads ['[', '[', '\\', '.', ']'] [.set false [.plain '[', .quoted '.']] ∧
    xfnmCompile ['[', '[', '\\', '.', ']'] (goalFlags .whole false false) = none :=
  ⟨reads_quotedPeriod, by decide +kernel⟩

/-- The reading of `[[\:alpha:]]`: one of `[:alph`, followed by a closing bracket. -/
theorem reads_quotedClass :
    Reads "[[\\:alpha:]]".toList
      [.set false [.plain '[', .quoted ':', .plain 'a', .plain 'l', .plain 'p', .plain 'h',
        .plain 'a', .plain ':'], .lit ']'] :=
  .set ['[', '\\', ':', 'a', 'l', 'p', 'h', 'a', ':', ']'] [']'] false _ _
    (.items '[' _ _ (by decide) (by decide) (by decide)
      (.bracket _ _ (by intro k r h; cases h; simp [isKind]) (.quoted ':' _ _
        (.plain 'a' _ _ (by decide) (by decide) (by decide)
        (.plain 'l' _ _ (by decide) (by decide) (by decide)
        (.plain 'p' _ _ (by decide) (by decide) (by decide)
        (.plain 'h' _ _ (by decide) (by decide) (by decide)
        (.plain 'a' _ _ (by decide) (by decide) (by decide)
        (.plain ':' _ _ (by decide) (by decide) (by decide) .close)))))))))
    (.plain ']' _ _ (by decide) (by decide) (by decide) (by decide) .nil)

/-- Finding: the quotation in `[[\:alpha:]]` is lost, so that the pattern matches a letter instead
of two characters. -/
theorem C19_quoted_class :
    (∃ as, Reads "[[\\:alpha:]]".toList as ∧ ¬ Matches asciiLocale false as ['x']) ∧
    matchPattern asciiLocale ['x'] "[[\\:alpha:]]".toList = true := by
  refine ⟨⟨_, reads_quotedClass, ?_⟩, by decide +kernel⟩
  intro h
  rcases matches_cons asciiLocale h with ⟨h, -⟩ | ⟨c, s', he, -, h⟩
  · cases h
  · cases he
    rcases matches_cons asciiLocale h with ⟨h, -⟩ | ⟨c, s', he, -⟩
    · cases h
    · cases he

/-! ## The hypotheses can be met -/

/-- `[!a-c]*x` -/
theorem reads_example :
    Reads "[!a-c]*x".toList
      [.set true [.plain 'a', .plain '-', .plain 'c'], .star, .lit 'x'] :=
  .set ['!', 'a', '-', 'c', ']'] ['*', 'x'] true _ _
    (.neg '!' 'a' _ _ (Or.inl rfl) (by decide)
      (.plain 'a' _ _ (by decide) (by decide) (by decide)
      (.plain '-' _ _ (by decide) (by decide) (by decide)
      (.plain 'c' _ _ (by decide) (by decide) (by decide) .close))))
    (.star _ _ (.plain 'x' _ _ (by decide) (by decide) (by decide) (by decide) .nil))

theorem plausible_example :
    PlausiblePattern [.set true [.plain 'a', .plain '-', .plain 'c'], .star, .lit 'x'] := by
  simp [PlausiblePattern, Plausible]

-- C19: the pattern `[!a-c]*x` matches `dxx` and not `bxx`
example : Matches asciiLocale false
    [.set true [.plain 'a', .plain '-', .plain 'c'], .star, .lit 'x'] "dxx".toList :=
  (C19_case_partial asciiLocale _ _ reads_example plausible_example _).mp (by decide +kernel)
example : ¬ Matches asciiLocale false
    [.set true [.plain 'a', .plain '-', .plain 'c'], .star, .lit 'x'] "bxx".toList :=
  fun h => absurd ((C19_case_partial asciiLocale _ _ reads_example plausible_example _).mpr h)
    (by decide +kernel)
example : ∀ c, asciiLocale.same c '.' = true → c = '.' := by
  intro c h
  have e : ('.' : Char).isAlpha = false := by decide
  simpa [asciiLocale, e] using h
-- C18: `a*` is compiled to a literal
example : tryCompileLiteral "a\\?*".toList (goalFlags .shortestSuffix false false)
    = some ({ shortest := true, tailstar := true }, ['a', '?']) := by decide +kernel
-- C20: shortest and longest prefixes, and replacement
example : matchEach asciiLocale "*[x-z]".toList true false false "axbyc".toList = "byc".toList ∧
    matchEach asciiLocale "*[x-z]".toList true false true "axbyc".toList = "c".toList := by
  decide +kernel
example : substEach asciiLocale "[x-z]?".toList "-".toList false false true "axbyczz".toList
    = "a---".toList := by decide +kernel
-- C38: `a\*b[` is not a pattern
example : isMatchingPattern "a\\*b[".toList = false ∧ unquoted "a\\*b[".toList = "a*b[".toList := by
  decide +kernel
example : isPathnameMatchingPattern [] "a[b/c]".toList = false ∧
    Component "a[b/c]".toList "a[b".toList :=
  ⟨by decide +kernel, [], "/c]".toList, by decide, by decide, Or.inl rfl, Or.inr ⟨_, rfl⟩⟩

end Yash.Fnmatch
