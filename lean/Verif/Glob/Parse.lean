import Verif.Glob.Sound
import Verif.Fnmatch.Props
/-!
# How patterns are divided into components
-/
set_option autoImplicit false

namespace Yash.Glob

open Fnmatch (Compiled Locale xfnmMatch xfnmCompile isMatchingPattern goalFlags)
open Fnmatch.Spec (Atom Reads Matches PlausiblePattern unquoted)
open Spec (Part Options NameMatches Divides Ordinary Keyword)

/-- The options that the flags stand for. -/
def optionsOf (flags : GlobFlags) : Options :=
  { icase := flags.casefold, dotglob := flags.period, markdirs := flags.mark }

theorem unescape_eq (s : Path) : Expand.unescape s = unquoted s := by
  fun_induction Expand.unescape s with
  | case1 => rfl
  | case2 => rfl
  | case3 c s ih => rw [unquoted, ih]
  | case4 c s h1 h2 ih =>
    rw [unquoted, ih]
    · intro hc hs; exact h1 hc hs
    · intro d r hc hs; exact h2 d r hc hs

theorem unquoted_mem {s : Path} {c : Char} (h : c ∈ unquoted s) : c ∈ s := by
  fun_induction unquoted s with
  | case1 => exact h
  | case2 => cases h
  | case3 d r ih =>
    rcases List.mem_cons.mp h with h | h
    · simp [h]
    · simp [ih h]
  | case4 d r _ _ ih =>
    rcases List.mem_cons.mp h with h | h
    · simp [h]
    · simp [ih h]

theorem parse_text (enc : Path → Bool) (flags : GlobFlags) (buf t s : Path) (h : '/' ∉ t) :
    parsePattern enc flags buf (t ++ s) = parsePattern enc flags (buf ++ t) s := by
  induction t generalizing buf with
  | nil => simp
  | cons c t ih =>
    have hc : c ≠ '/' := fun e => h (by simp [e])
    simp only [List.cons_append, parsePattern, hc, if_false]
    rw [ih _ (fun h' => h (by simp [h']))]
    simp

theorem ordinary_comp {loc : Locale} (enc : Path → Bool) (flags : GlobFlags) (next : Bool)
    (hdot : ∀ c, loc.same c '.' = true → c = '.') {t : Path}
    {part : Part} (ho : Ordinary isMatchingPattern t part) (hsl : '/' ∉ t)
    (hk : next = true → flags.recdir = true → ∀ f h, ¬ Keyword t f h)
    (hp : ∀ as, part = .pattern as → PlausiblePattern as)
    (he : ∀ n, part = .name n → enc n = true) :
    ∃ c, parseComponent enc flags next t = some c ∧ Rep loc (optionsOf flags) c part ∧
      ∀ n, c = .literal n → '/' ∉ n := by
  have hk' : ∀ f h u, Keyword u f h → (next && flags.recdir && t == u) = false := by
    intro f h u hu
    cases hc : (next && flags.recdir && t == u) with
    | false => rfl
    | true =>
      simp only [Bool.and_eq_true, beq_iff_eq] at hc
      rw [← hc.2] at hu
      exact absurd hu (hk hc.1.1 hc.1.2 f h)
  unfold parseComponent
  rw [hk' _ _ _ .plain, hk' _ _ _ .follow, hk' _ _ _ .hidden, hk' _ _ _ .both]
  simp only [Bool.false_eq_true, if_false]
  cases ho with
  | name hm =>
    rw [hm]
    simp only [Bool.false_eq_true, if_false, unescape_eq, he _ rfl, if_true]
    refine ⟨_, rfl, .literal _, ?_⟩
    intro n hn
    cases hn
    exact fun h => hsl (unquoted_mem h)
  | pattern as hm hr =>
    rw [hm]
    simp only [if_true]
    have : ∃ x, xfnmCompile t
        { headonly := true, tailonly := true, casefold := flags.casefold, period := !flags.period } =
          some x ∧
        ∀ n, n ≠ [] → '/' ∉ n → (xfnmMatch loc x n = true ↔ NameMatches loc (optionsOf flags) as n) := by
      cases hpd : flags.period with
      | true =>
        obtain ⟨x, hx, h⟩ := Fnmatch.C19_match_partial loc t as hr (hp as rfl) flags.casefold
        refine ⟨x, hx, fun n hn hs => ?_⟩
        rw [(h n).2]
        simp [NameMatches, optionsOf, hpd, hn, hs]
      | false =>
        obtain ⟨x, hx, h⟩ := Fnmatch.C19_period_partial loc t as hr (hp as rfl) flags.casefold hdot
        refine ⟨x, hx, fun n hn hs => ?_⟩
        rw [h n]
        simp [NameMatches, optionsOf, hpd, hn, hs]
    obtain ⟨x, hx, hiff⟩ := this
    rw [hx]
    exact ⟨_, rfl, .match x as hiff, by intro n hn; cases hn⟩

theorem reps_cons {loc : Locale} {o : Options} {c : Comp} {cs : List Comp} {part : Part}
    {ps : List Part} (h : Rep loc o c part) (hs : Reps loc o cs ps) :
    Reps loc o (c :: cs) (part :: ps) where
  length := by simp [hs.length]
  rep i d p hd hp := by
    cases i with
    | zero =>
      simp only [List.getElem?_cons_zero, Option.some.injEq] at hd hp
      subst hd hp
      exact h
    | succ i => exact hs.rep i d p (by simpa using hd) (by simpa using hp)

theorem reps_nil (loc : Locale) (o : Options) : Reps loc o [] [] where
  length := rfl
  rep i d p hd _ := by simp at hd

theorem parse_divides {loc : Locale} (enc : Path → Bool) (flags : GlobFlags)
    (hdot : ∀ c, loc.same c '.' = true → c = '.') {pat : Path} {parts : List Part}
    (hd : Divides isMatchingPattern flags.recdir pat parts)
    (hp : ∀ as, Part.pattern as ∈ parts → PlausiblePattern as)
    (he : ∀ n, Part.name n ∈ parts → enc n = true) :
    ∃ comps, parsePattern enc flags [] pat = some comps ∧ Reps loc (optionsOf flags) comps parts ∧
      (∀ n, Comp.literal n ∈ comps → '/' ∉ n) ∧ comps ≠ [] := by
  induction hd with
  | last t part hsl ho =>
    obtain ⟨c, h1, h2, h3⟩ := ordinary_comp (loc := loc) enc flags false hdot ho hsl (by simp)
      (fun as e => hp as (by simp [e])) (fun n e => he n (by simp [e]))
    refine ⟨[c], ?_, reps_cons h2 (reps_nil _ _), ?_, by simp⟩
    · have := parse_text enc flags [] t [] hsl
      simp only [List.append_nil, List.nil_append] at this
      rw [this, parsePattern, h1]
    · intro n hn
      exact h3 n (by simpa using Eq.symm (List.mem_singleton.mp hn))
  | ordinary t rest part ps hsl hk ho _ ih =>
    obtain ⟨c, h1, h2, h3⟩ := ordinary_comp (loc := loc) enc flags true hdot ho hsl
      (fun _ e => hk e) (fun as e => hp as (by simp [e])) (fun n e => he n (by simp [e]))
    obtain ⟨cs, g1, g2, g3, -⟩ := ih (fun as h => hp as (by simp [h])) (fun n h => he n (by simp [h]))
    refine ⟨c :: cs, ?_, reps_cons h2 g2, ?_, by simp⟩
    · rw [parse_text enc flags [] t _ hsl, List.nil_append, parsePattern, if_pos rfl, h1]
      simp only [g1]
    · intro n hn
      rcases List.mem_cons.mp hn with hn | hn
      · exact h3 n hn.symm
      · exact g3 n hn
  | keyword t rest f h ps hx hk _ ih =>
    obtain ⟨cs, g1, g2, g3, -⟩ := ih (fun as h => hp as (by simp [h])) (fun n h => he n (by simp [h]))
    have hsl : '/' ∉ t := by cases hk <;> decide
    have hc : parseComponent enc flags true t = some (.recsearch f h) := by
      unfold parseComponent
      cases hk <;> simp [hx]
    refine ⟨.recsearch f h :: cs, ?_, reps_cons (.recsearch f h) g2, ?_, by simp⟩
    · rw [parse_text enc flags [] t _ hsl, List.nil_append, parsePattern, if_pos rfl, hc]
      simp only [g1]
    · intro n hn
      rcases List.mem_cons.mp hn with hn | hn
      · cases hn
      · exact g3 n hn

theorem parse_unencodable (enc : Path → Bool) (flags : GlobFlags) {pat : Path} {parts : List Part}
    (hd : Divides isMatchingPattern flags.recdir pat parts) :
    ∀ n, Part.name n ∈ parts → enc n = false → parsePattern enc flags [] pat = none := by
  have ord : ∀ {t n : Path} (next : Bool), Ordinary isMatchingPattern t (.name n) →
      (next = true → flags.recdir = true → ∀ f h, ¬ Keyword t f h) → enc n = false →
      parseComponent enc flags next t = none := by
    intro t n next ho hk he
    have hk' : ∀ f h u, Keyword u f h → (next && flags.recdir && t == u) = false := by
      intro f h u hu
      cases hc : (next && flags.recdir && t == u) with
      | false => rfl
      | true =>
        simp only [Bool.and_eq_true, beq_iff_eq] at hc
        rw [← hc.2] at hu
        exact absurd hu (hk hc.1.1 hc.1.2 f h)
    unfold parseComponent
    rw [hk' _ _ _ .plain, hk' _ _ _ .follow, hk' _ _ _ .hidden, hk' _ _ _ .both]
    cases ho with
    | name hm =>
      rw [hm]
      simp [unescape_eq, he]
  induction hd with
  | last t part hsl ho =>
    intro n hn he
    rw [← List.mem_singleton.mp hn] at ho
    have := parse_text enc flags [] t [] hsl
    simp only [List.append_nil, List.nil_append] at this
    rw [this, parsePattern, ord false ho (by simp) he]
  | ordinary t rest part ps hsl hk ho _ ih =>
    intro n hn he
    rw [parse_text enc flags [] t _ hsl, List.nil_append, parsePattern, if_pos rfl]
    rcases List.mem_cons.mp hn with hn | hn
    · rw [← hn] at ho
      rw [ord true ho (fun _ e => hk e) he]
    · rw [ih n hn he]
      cases parseComponent enc flags true t <;> rfl
  | keyword t rest f h ps hx hk _ ih =>
    intro n hn he
    have hsl : '/' ∉ t := by cases hk <;> decide
    rw [parse_text enc flags [] t _ hsl, List.nil_append, parsePattern, if_pos rfl]
    rcases List.mem_cons.mp hn with hn | hn
    · cases hn
    · rw [ih n hn he]
      cases parseComponent enc flags true t <;> rfl

theorem ordinary_total (t : Path) : ∃ part, Ordinary isMatchingPattern t part := by
  cases h : isMatchingPattern t with
  | true =>
    obtain ⟨as, has⟩ := Fnmatch.C19_total t
    exact ⟨_, .pattern t as h has⟩
  | false => exact ⟨_, .name t h⟩

theorem divides_total (ext : Bool) (pat : Path) : ∃ parts, Divides isMatchingPattern ext pat parts := by
  induction hn : pat.length using Nat.strongRecOn generalizing pat with
  | ind n ih =>
    by_cases h : '/' ∈ pat
    · obtain ⟨t, rest, rfl, ht⟩ : ∃ t rest, pat = t ++ '/' :: rest ∧ '/' ∉ t := by
        clear ih hn
        induction pat with
        | nil => cases h
        | cons c pat ihp =>
          by_cases hc : c = '/'
          · exact ⟨[], pat, by simp [hc], by simp⟩
          · have hm : '/' ∈ pat := by
              rcases List.mem_cons.mp h with e | e
              · exact absurd e.symm hc
              · exact e
            obtain ⟨t, rest, e1, e2⟩ := ihp hm
            exact ⟨c :: t, rest, by simp [e1], by simp [e2, Ne.symm hc]⟩
      obtain ⟨ps, hps⟩ := ih rest.length (by simp at hn; omega) rest rfl
      by_cases hk : ext = true ∧ ∃ f h, Keyword t f h
      · obtain ⟨hx, f, h, hk⟩ := hk
        exact ⟨_, .keyword t rest f h ps hx hk hps⟩
      · obtain ⟨part, ho⟩ := ordinary_total t
        exact ⟨_, .ordinary t rest part ps ht (fun e f h hkw => hk ⟨e, f, h, hkw⟩) ho hps⟩
    · obtain ⟨part, ho⟩ := ordinary_total pat
      exact ⟨_, .last pat part h ho⟩

end Yash.Glob
