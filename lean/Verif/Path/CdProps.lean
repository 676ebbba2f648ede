import Verif.Path.CdLemmas
/-!
# C42: `PWD` names the working directory
-/
set_option autoImplicit false

namespace Yash.Path

open Variable (Name Word Shell setVariable getPathArray get)
open Variable.Spec (varAt Sane)
open Spec

theorem getvar_head (sh : Shell) (n : Name) (c : Char) :
    (getvar sh n).bind (·.head?) = some c ↔ ∃ p, Value sh n p ∧ p.head? = some c := by
  cases h : getvar sh n with
  | none =>
    simp only [Option.bind_none, reduceCtorEq, false_iff]
    rintro ⟨p, hp, _⟩
    rw [← getvar_value, h] at hp
    cases hp
  | some p =>
    simp only [Option.bind_some]
    constructor
    · intro hp; exact ⟨p, (getvar_value _ _ _).mp h, hp⟩
    · rintro ⟨q, hq, hc⟩
      rw [← getvar_value, h] at hq
      cases hq
      exact hc

theorem not_absolute (sh : Shell) (n : Name) (h : ¬ (getvar sh n).bind (·.head?) = some '/') :
    ∀ p, Value sh n p → p.head? ≠ some '/' := fun p hp hc => h ((getvar_head sh n '/').mpr ⟨p, hp, hc⟩)

/-- The state after the first part of `cd`. -/
structure Prepared {N : Type} (sys : Sys N) (w : World N) (sh : Shell) : Prop where
  sane : Sane sh
  writable : Writable sh pwdName
  other : ∀ m, m ≠ pwdName → ∀ d, varAt sh d m = varAt w.sh d m
  paths : allPaths sh.scopes = allPaths w.sh.scopes
  pwd : sh = w.sh ∨ ((∀ p, Value w.sh pwdName p → p.head? ≠ some '/') ∧
    ∃ p, sys.getcwd w.cwd = some p ∧ Value sh pwdName p)

theorem prepare_fail {N : Type} (seed : Word → Bool) (sys : Sys N) (w : World N)
    (samePwd logical : Bool) (sh : Shell) (h : prepare seed sys w samePwd logical = some (.fail sh)) :
    sh = w.sh := by
  have hc : ∀ s l o, checkPrep s l o ≠ some (.fail sh) := by
    intro s l o
    cases o <;> simp only [checkPrep] <;> split <;> simp
  unfold prepare at h
  simp only at h
  split at h
  · exact absurd h (hc _ _ _)
  · split at h
    · cases h; rfl
    · split at h
      · split at h
        · cases h; rfl
        · exact absurd h (hc _ _ _)
      · split at h
        · cases h
        · exact absurd h (hc _ _ _)
        · exact absurd h (hc _ _ _)

theorem checkPrep_go (s sh : Shell) (l lg : Bool) (o orig : Option Word)
    (h : checkPrep s l o = some (.go sh lg orig)) :
    sh = s ∧ lg = l ∧ orig = o ∧ (l = true → o ≠ none) ∧ ∀ p, o = some p → p.head? = some '/' := by
  cases o with
  | none =>
    simp only [checkPrep] at h
    split at h
    · cases h
    · rename_i hl
      cases h
      exact ⟨rfl, rfl, rfl, fun h => absurd h hl, fun p hp => by cases hp⟩
  | some q =>
    simp only [checkPrep] at h
    split at h
    · rename_i hq
      cases h
      refine ⟨rfl, rfl, rfl, fun _ => by simp, fun p hp => ?_⟩
      cases hp
      exact hq
    · cases h

theorem prepare_go {N : Type} (seed : Word → Bool) (sys : Sys N) (w : World N) (samePwd logical : Bool)
    (hs : Sane w.sh) (hw : Writable w.sh pwdName) (sh : Shell) (lg : Bool) (orig : Option Word)
    (h : prepare seed sys w samePwd logical = some (.go sh lg orig)) :
    lg = logical ∧ Prepared sys w sh ∧
      ((logical = false ∧ orig = none ∧ ∀ q, ¬ Before sys w q) ∨
        ∃ p, orig = some p ∧ Before sys w p ∧ Value sh pwdName p) := by
  have hsame : Prepared sys w w.sh := ⟨hs, hw, fun _ _ _ => rfl, rfl, Or.inl rfl⟩
  unfold prepare at h
  simp only at h
  split at h
  · rename_i ha
    obtain ⟨rfl, rfl, rfl, _, _⟩ := checkPrep_go _ _ _ _ _ _ h
    refine ⟨rfl, hsame, Or.inr ?_⟩
    obtain ⟨p, h1, h2⟩ := (getvar_head _ _ _).mp ha
    exact ⟨p, (getvar_value _ _ _).mpr h1, ⟨h2, Or.inl h1⟩, h1⟩
  · rename_i ha
    have hna := not_absolute _ _ ha
    split at h
    · cases h
    · split at h
      · rename_i hcwd
        split at h
        · cases h
        · rename_i hl
          obtain ⟨rfl, rfl, rfl, _, h3⟩ := checkPrep_go _ _ _ _ _ _ h
          have hnb : ∀ q, ¬ Before sys w q := by
            rintro q ⟨h1, h2 | ⟨_, h2⟩⟩
            · exact hna q h2 h1
            · rw [hcwd] at h2; cases h2
          refine ⟨rfl, hsame, Or.inl ⟨by simpa using hl, ?_, hnb⟩⟩
          cases hg : getvar w.sh pwdName with
          | none => rfl
          | some p =>
            exact absurd (h3 p hg) (hna p ((getvar_value _ _ _).mp hg))
      · rename_i p hcwd
        obtain ⟨sh1, b, h1⟩ := setVariable_total seed w.sh pwdName p false hs
        obtain ⟨ha', hb⟩ := setVariable_assigned seed w.sh sh1 pwdName p false b hs h1
        have hb := hb hw
        subst hb
        obtain ⟨hv, hw1⟩ := ha'.value hw
        rw [h1] at h
        simp only at h
        obtain ⟨rfl, rfl, rfl, _, h3⟩ := checkPrep_go _ _ _ _ _ _ h
        have hg := (getvar_value _ _ _).mpr hv
        refine ⟨rfl, ⟨ha'.sane, hw1, ha'.other, ha'.paths (by decide), Or.inr ⟨hna, p, hcwd, hv⟩⟩, Or.inr ⟨p, hg, ?_, hv⟩⟩
        exact ⟨h3 p hg, Or.inr ⟨hna, hcwd⟩⟩

theorem findDir_standsFor (isDir : Word → Bool) (cdpath : Option (List Word)) (operand : Word) :
    StandsFor isDir cdpath operand (findDir isDir cdpath operand).1 ∧
      (findDir isDir cdpath operand).2 = ((findDir isDir cdpath operand).1 != operand) := by
  unfold StandsFor findDir
  simp only
  by_cases hf : operand.head? = some '/' ∨ (comps operand).head? = some dot ∨
      (comps operand).head? = some dotdot
  · have : (decide (operand.head? = some '/') || startsWithDot operand) = true := by
      by_cases hh : operand.head? = some '/'
      · simp [hh]
      · rw [Bool.or_eq_true, startsWithDot_comps]
        exact Or.inr ⟨hh, hf.resolve_left hh⟩
    rw [if_pos this]
    exact ⟨⟨fun _ => rfl, fun hn => absurd (Or.inr hf) hn⟩, by simp⟩
  · have : ¬ (decide (operand.head? = some '/') || startsWithDot operand) = true := by
      rw [Bool.or_eq_true, startsWithDot_comps, decide_eq_true_eq]
      rintro (h | ⟨_, h⟩)
      · exact hf (Or.inl h)
      · exact hf (Or.inr h)
    rw [if_neg this]
    cases operand with
    | nil => exact ⟨⟨fun _ => rfl, fun h => absurd (Or.inl rfl) h⟩, rfl⟩
    | cons c s =>
      have hc : c ≠ '/' := fun h => hf (Or.inl (by rw [h]; rfl))
      have hwh : which (c :: s) (some (cdpath.getD [[]])) isDir =
          whichLoop isDir (c :: s) (cdpath.getD [[]]) := by
        unfold which
        split
        · rename_i h; cases h
        · rename_i h; cases h; exact absurd rfl hc
        · rfl
      rw [hwh]
      cases hl : whichLoop isDir (c :: s) (cdpath.getD [[]]) with
      | none =>
        refine ⟨⟨fun _ => rfl, fun _ => Or.inr ⟨rfl, fun q hq => ?_⟩⟩, by simp⟩
        rw [(whichLoop_first isDir (c :: s) _ q).mpr hq] at hl
        cases hl
      | some p =>
        refine ⟨⟨?_, fun _ => Or.inl ((whichLoop_first isDir (c :: s) _ p).mp hl)⟩, ?_⟩
        · rintro (h | h)
          · cases h
          · exact absurd h hf
        · simp only
          rw [bne_comm]

theorem slashes_iff {s : List Char} : s.dropWhile (· == '/') = [] ↔ ∀ c ∈ s, (c == '/') = true := by
  induction s with
  | nil => simp
  | cons c s ih =>
    rw [List.dropWhile_cons]
    split
    · rename_i h
      rw [ih]
      simp only [List.mem_cons, forall_eq_or_imp, h, true_and]
    · rename_i h
      simp only [reduceCtorEq, List.mem_cons, forall_eq_or_imp, h, false_and]

theorem head_append (a b : List Char) (c : Char) (h : a.head? = some c) : (a ++ b).head? = some c := by
  cases a with
  | nil => cases h
  | cons d a => exact h

/-- The absolute path that `cd` makes: its components and its root. -/
theorem absolute_joined (orig p : Word) (ho : orig.head? = some '/') :
    comps (absolute orig p) = joined orig p ∧ (absolute orig p).head? = some '/' ∧
      root (absolute orig p) = if p.head? = some '/' then root p else root orig := by
  unfold absolute joined
  by_cases hp : p.head? = some '/'
  · simp only [if_pos hp]
    exact ⟨trivial, hp, trivial⟩
  · simp only [if_neg hp]
    by_cases hl : orig.getLast? = some '/'
    · rw [if_pos hl]
      refine ⟨comps_append_slash _ _ hl, head_append _ _ _ ho, ?_⟩
      by_cases hd : orig.dropWhile (· == '/') = []
      · have hall : ∀ c ∈ orig, c = '/' := by
          intro c hc
          have := slashes_iff.mp hd c hc
          simpa using this
        match orig, hall with
        | [], _ => cases ho
        | [c], hall =>
          have := hall c (by simp)
          subst this
          cases p with
          | nil => rfl
          | cons d p =>
            have hd : d ≠ '/' := fun h => hp (by rw [h]; rfl)
            unfold root
            simp only [List.singleton_append]
            split <;> simp_all
        | [c, d], hall =>
          have h1 := hall c (by simp)
          have h2 := hall d (by simp)
          subst h1 h2
          cases p with
          | nil => rfl
          | cons e p =>
            have he : e ≠ '/' := fun h => hp (by rw [h]; rfl)
            exact root_two e p he
        | c :: d :: e :: s, hall =>
          have h1 := hall c (by simp)
          have h2 := hall d (by simp)
          have h3 := hall e (by simp)
          subst h1 h2 h3
          rfl
      · exact root_append _ _ hd
    · rw [if_neg hl]
      refine ⟨comps_slash_append _ _, head_append _ _ _ ho, root_append _ _ ?_⟩
      intro hd
      have hall : ∀ c ∈ orig, c = '/' := by
        intro c hc
        have := slashes_iff.mp hd c hc
        simpa using this
      cases hg : orig.getLast? with
      | none =>
        rw [List.getLast?_eq_none_iff] at hg
        rw [hg] at ho
        cases ho
      | some c =>
        have := hall c (List.mem_of_getLast? hg)
        rw [this] at hg
        exact hl hg

/-- The part of the path given to `chdir` leads to the same directory as the path, and the assertion
about it holds. -/
theorem relativePart_denotes {N : Type} (fs : FileSystem N) (cwd : N) (orig path : Word)
    (hr : fs.start ['/'] ≠ none ∧ fs.start ['/', '/'] ≠ none)
    (ho : orig.head? = some '/') (hcwd : Denotes fs cwd orig cwd) (r : List Char) (out : List Comp)
    (hroot : Root r) (hgood : ∀ x ∈ out, Good x) (hpath : path = render r out) :
    ∃ t, relativePart orig path = some t ∧
      ∀ n, Denotes fs cwd t n → Denotes fs cwd path n := by
  unfold relativePart
  by_cases hd : orig.dropWhile (· == '/') = []
  · rw [if_pos hd]; exact ⟨path, rfl, fun _ h => h⟩
  rw [if_neg hd]
  cases hm : matchPrefix path orig with
  | none => exact ⟨path, rfl, fun _ h => h⟩
  | some s =>
    rw [matchPrefix_eq] at hm
    simp only
    split
    · rename_i hb
      -- the rest of the joined components
      obtain ⟨t, ht, hj⟩ : ∃ t, orig = r ++ t ∧ List.intercalate ['/'] out = t ++ s := by
        have he : r ++ List.intercalate ['/'] out = orig ++ s := by rw [← hm, hpath]; rfl
        rcases List.append_eq_append_iff.mp he with ⟨c, h1, h2⟩ | ⟨c, h1, h2⟩
        · exact ⟨c, h1, h2⟩
        · exfalso
          apply hd
          rw [slashes_iff]
          intro x hx
          have hxr : x ∈ r := by rw [h1]; exact List.mem_append_left _ hx
          have : x = '/' := by
            rcases hroot with rfl | rfl | rfl
            · cases hxr
            · simpa using hxr
            · simpa using hxr
          simpa using this
      have htne : t ≠ [] := by
        rintro rfl
        rw [List.append_nil] at ht
        apply hd
        rw [slashes_iff]
        intro x hx
        rw [ht] at hx
        have : x = '/' := by
          rcases hroot with rfl | rfl | rfl
          · cases hx
          · simpa using hx
          · simpa using hx
        simpa using this
      have hdouble : ∀ a b, t ++ s ≠ a ++ '/' :: '/' :: b := by
        intro a b
        rw [← hj]
        exact joined_double out hgood a b
      have key : ∀ u, u.head? ≠ some '/' → comps path = comps orig ++ comps u →
          ∀ n, Denotes fs cwd u n → Denotes fs cwd path n := by
        intro u hu hc n hn
        obtain ⟨h1, h2, h3, h4⟩ := hn
        have hru : root u = [] := by
          unfold root
          split <;> simp_all
        rw [hru, fs.start_rel, Option.getD_none] at h4
        refine ⟨?_, h2, h3, ?_⟩
        · rw [hm]
          intro h
          have := List.append_eq_nil_iff.mp h
          rw [this.1] at ho
          cases ho
        · have hrp : root path = root orig := by rw [hm]; exact root_append _ _ hd
          rw [hrp, hc, follow_append, hcwd.2.2.2]
          exact h4
      cases s with
      | nil =>
        have hl : orig.getLast? = some '/' := by simpa using hb
        simp only [List.head?_nil, reduceCtorEq, if_false]
        exact ⟨[], rfl, fun n hn => absurd rfl hn.1⟩
      | cons c s =>
        by_cases hc : c = '/'
        · subst hc
          simp only [List.head?_cons, if_true, List.drop_succ_cons, List.drop_zero]
          have hs : s.head? ≠ some '/' := by
            cases s with
            | nil => intro h; cases h
            | cons d s =>
              intro h
              simp only [List.head?_cons, Option.some.injEq] at h
              subst h
              exact hdouble t s rfl
          rw [if_neg hs]
          exact ⟨s, rfl, key s hs (by rw [hm, comps_slash_append])⟩
        · have hs : (c :: s).head? ≠ some '/' := by
            simpa using hc
          rw [if_neg hs, if_neg hs]
          have hl : orig.getLast? = some '/' := by
            rcases Bool.or_eq_true _ _ |>.mp hb with h | h
            · simpa using h
            · exact absurd (by simpa using h) hs
          exact ⟨_, rfl, key _ hs (by rw [hm, comps_append_slash _ _ hl])⟩
    · exact ⟨path, rfl, fun _ h => h⟩

/-- What `cd` has done when it succeeds. -/
structure Moved {N : Type} (fs : FileSystem N) (sys : Sys N) (posix : Bool) (w : World N) (operand : Word)
    (print logical : Bool) (w' : World N) (out : Option Word) (p : Word) : Prop where
  sane : Sane w'.sh
  writable : Writable w'.sh pwdName
  other : ∀ m, m ≠ pwdName → m ≠ oldpwdName → ∀ d, varAt w'.sh d m = varAt w.sh d m
  paths : allPaths w'.sh.scopes = allPaths w.sh.scopes
  standsFor : StandsFor (sys.isDir w.cwd) (getPathArray w.sh.scopes "CDPATH".toList) operand p
  place : logical = true → ∃ orig path new, Before sys w orig ∧
    canonicalize (sys.isDir w.cwd) (absolute orig p) = .ok path ∧ Denotes fs w.cwd path w'.cwd ∧
    new = (if posix then path else canonicalizeEx (sys.sameFile w'.cwd "/".toList "/..".toList) path) ∧
    Value w'.sh pwdName new ∧ out = if print || p != operand then some new else none
  physical : logical = false → Denotes fs w.cwd p w'.cwd ∧
    (∀ new, sys.getcwd w'.cwd = some new → Value w'.sh pwdName new ∧
      out = if print || p != operand then some new else none) ∧
    (sys.getcwd w'.cwd = none → out = none)
  oldpwd : Writable w.sh oldpwdName → ∀ orig, Before sys w orig → Value w'.sh oldpwdName orig

theorem Spec.Before.unique {N : Type} {sys : Sys N} {w : World N} {p q : Word} (h : Before sys w p)
    (h' : Before sys w q) : p = q := by
  rcases h with ⟨h1, h2 | ⟨h2, h3⟩⟩
  · rcases h' with ⟨h1', h2' | ⟨h2', h3'⟩⟩
    · exact value_unique _ _ _ _ h2 h2'
    · exact absurd h1 (h2' p h2)
  · rcases h' with ⟨h1', h2' | ⟨h2', h3'⟩⟩
    · exact absurd h1' (h2 q h2')
    · rw [h3] at h3'; exact Option.some.inj h3'

theorem Spec.Before.denotes {N : Type} {fs : FileSystem N} {sys : Sys N} (ht : Truthful fs sys)
    {w : World N} (hp : NotWrong fs w) {p : Word} (h : Before sys w p) : Denotes fs w.cwd p w.cwd := by
  rcases h with ⟨h1, h2 | ⟨h2, h3⟩⟩
  · rcases hp with ⟨q, hq, _, hd⟩ | hp
    · rw [value_unique _ _ _ _ h2 hq]; exact hd
    · exact absurd h1 (hp p h2)
  · exact (ht.getcwd _ _ h3).2

theorem finish_total {N : Type} (seed : Word → Bool) (sys : Sys N) (posix : Bool) (sh : Shell) (cwd : N)
    (orig : Option Word) (logical print : Bool) (curpath : Word) (hs : Sane sh)
    (hw : Writable sh pwdName) :
    ∃ sh' out, finish seed sys posix sh cwd orig logical print curpath = some (⟨sh', cwd⟩, .success out) ∧
      Sane sh' ∧ Writable sh' pwdName ∧
      (∀ m, m ≠ pwdName → m ≠ oldpwdName → ∀ d, varAt sh' d m = varAt sh d m) ∧
      allPaths sh'.scopes = allPaths sh.scopes ∧
      (Writable sh oldpwdName → ∀ o, orig = some o → Value sh' oldpwdName o) ∧
      (logical = true →
        Value sh' pwdName (if posix then curpath
          else canonicalizeEx (sys.sameFile cwd "/".toList "/..".toList) curpath) ∧
        out = if print then some (if posix then curpath
          else canonicalizeEx (sys.sameFile cwd "/".toList "/..".toList) curpath) else none) ∧
      (logical = false → (∀ new, sys.getcwd cwd = some new → Value sh' pwdName new ∧
        out = if print then some new else none) ∧ (sys.getcwd cwd = none → out = none)) := by
  have hne : oldpwdName ≠ pwdName := by decide
  obtain ⟨sh1, h1, hs1, hw1, ho1, hp1, hv1⟩ : ∃ sh1, setOldpwd seed sh orig = some sh1 ∧ Sane sh1 ∧ Writable sh1 pwdName ∧
      (∀ m, m ≠ oldpwdName → ∀ d, varAt sh1 d m = varAt sh d m) ∧
      allPaths sh1.scopes = allPaths sh.scopes ∧
      (Writable sh oldpwdName → ∀ o, orig = some o → Value sh1 oldpwdName o) := by
    cases orig with
    | none => exact ⟨sh, rfl, hs, hw, fun _ _ _ => rfl, rfl, fun _ o ho => by cases ho⟩
    | some o =>
      obtain ⟨sh1, h1, ha⟩ := setScalar_assigned seed sh oldpwdName o hs
      refine ⟨sh1, h1, ha.sane, writable_congr _ _ _ (ha.other _ hne.symm) hw, ha.other,
        ha.paths (by decide), ?_⟩
      intro hwo o' ho'
      cases ho'
      exact (ha.value hwo).1
  have hset : ∀ path, ∃ sh', setScalar seed sh1 pwdName path = some sh' ∧ Sane sh' ∧
      Writable sh' pwdName ∧
      (∀ m, m ≠ pwdName → m ≠ oldpwdName → ∀ d, varAt sh' d m = varAt sh d m) ∧
      allPaths sh'.scopes = allPaths sh.scopes ∧
      (Writable sh oldpwdName → ∀ o, orig = some o → Value sh' oldpwdName o) ∧
      Value sh' pwdName path := by
    intro path
    obtain ⟨sh2, h2, ha⟩ := setScalar_assigned seed sh1 pwdName path hs1
    obtain ⟨hv2, hw2⟩ := ha.value hw1
    refine ⟨sh2, h2, ha.sane, hw2, ?_, (ha.paths (by decide)).trans hp1, ?_, hv2⟩
    · intro m hm hm' d
      rw [ha.other m hm, ho1 m hm']
    · intro hwo o ho
      exact (value_congr _ _ _ _ (ha.other _ hne)).mpr (hv1 hwo o ho)
  unfold finish
  rw [h1]
  simp only
  cases logical with
  | true =>
    simp only [if_true]
    obtain ⟨sh2, h2, a, b, c, d, e, f⟩ := hset (if posix then curpath
      else canonicalizeEx (sys.sameFile cwd "/".toList "/..".toList) curpath)
    rw [h2]
    exact ⟨sh2, _, rfl, a, b, c, d, e, fun _ => ⟨f, rfl⟩, fun h => by cases h⟩
  | false =>
    simp only [Bool.false_eq_true, if_false]
    cases hc : sys.getcwd cwd with
    | none =>
      exact ⟨sh1, none, rfl, hs1, hw1, fun m _ hm d => ho1 m hm d, hp1, hv1, fun h => (by cases h),
        fun _ => ⟨fun new hn => (by cases hn), fun _ => rfl⟩⟩
    | some path =>
      obtain ⟨sh2, h2, a, b, c, d, e, f⟩ := hset path
      simp only [h2, Option.map_some]
      refine ⟨sh2, _, rfl, a, b, c, d, e, fun h => (by cases h), fun _ => ⟨fun new hn => ?_, fun h => (by cases h)⟩⟩
      cases hn
      exact ⟨f, rfl⟩

/-- What `cd` does when it succeeds, what it does when it fails, and when an assertion fails. -/
theorem cd_moved {N : Type} (fs : FileSystem N) (sys : Sys N) (ht : Truthful fs sys) (seed : Word → Bool)
    (posix : Bool) (w : World N) (operand : Word) (samePwd print logical : Bool) (hs : Sane w.sh)
    (hw : Writable w.sh pwdName) (hp : NotWrong fs w) :
    match changeDirectory seed sys posix w operand samePwd print logical with
    | some (w', .success out) => ∃ p, Moved fs sys posix w operand print logical w' out p
    | some (w', .failure) => w'.cwd = w.cwd ∧ Prepared sys w w'.sh
    | none => prepare seed sys w samePwd logical = none := by
  unfold changeDirectory
  cases hpr : prepare seed sys w samePwd logical with
  | none => rfl
  | some r =>
    cases r with
    | fail sh =>
      have := prepare_fail seed sys w samePwd logical sh hpr
      subst this
      exact ⟨rfl, hs, hw, fun _ _ _ => rfl, rfl, Or.inl rfl⟩
    | go sh lg orig =>
      obtain ⟨rfl, hprep, horig⟩ := prepare_go seed sys w samePwd logical hs hw sh lg orig hpr
      simp only
      have hcd : getPathArray sh.scopes "CDPATH".toList = getPathArray w.sh.scopes "CDPATH".toList :=
        getPathArray_allPaths _ _ _ hprep.paths
      have hwold : Writable w.sh oldpwdName → Writable sh oldpwdName :=
        writable_congr _ _ _ (hprep.other _ (by decide))
      have hold : ∀ sh', (Writable sh oldpwdName → ∀ o, orig = some o → Value sh' oldpwdName o) →
          Writable w.sh oldpwdName → ∀ o, Before sys w o → Value sh' oldpwdName o := by
        intro sh' h hwo o ho
        rcases horig with ⟨_, _, hn⟩ | ⟨p, h1, h2, _⟩
        · exact absurd ho (hn o)
        · have := h2.unique ho
          subst this
          exact h (hwold hwo) p h1
      unfold goTo
      simp only
      rw [hcd]
      obtain ⟨hstands, hprint⟩ := findDir_standsFor (sys.isDir w.cwd)
        (getPathArray w.sh.scopes "CDPATH".toList) operand
      generalize hf : findDir (sys.isDir w.cwd) (getPathArray w.sh.scopes "CDPATH".toList) operand = found
      rw [hf] at hstands hprint
      cases lg with
      | false =>
        simp only [Bool.false_eq_true, if_false]
        unfold enterDir
        cases hch : sys.chdir w.cwd found.1 with
        | none => exact ⟨rfl, hprep⟩
        | some n =>
          simp only
          obtain ⟨sh', out, h1, h2, h3, h4, h5, h6, _, h8⟩ := finish_total seed sys posix sh n orig false
            (print || found.2) found.1 hprep.sane hprep.writable
          rw [h1]
          rw [hprint] at h8
          refine ⟨found.1, h2, h3, ?_, h5.trans hprep.paths, hstands, fun h => (by cases h), fun _ => ?_,
            hold sh' h6⟩
          · intro m hm hm' d
            rw [h4 m hm hm', hprep.other m hm]
          · exact ⟨ht.chdir _ _ _ hch, h8 rfl⟩
      | true =>
        simp only [if_true]
        rcases horig with ⟨h, _⟩ | ⟨p, rfl, hb, _⟩
        · cases h
        simp only
        obtain ⟨hno, hcan⟩ := C31_canonical (sys.isDir w.cwd) (absolute p found.1)
        cases hc : canonicalize (sys.isDir w.cwd) (absolute p found.1) with
        | overflow => exact absurd hc hno
        | notDir => exact ⟨rfl, hprep⟩
        | ok path =>
          simp only
          obtain ⟨cs, hsimp, hrender, hcomps, hroot⟩ := hcan path hc
          obtain ⟨t, h1, hden⟩ := relativePart_denotes fs w.cwd p path ht.roots hb.1 (hb.denotes ht hp)
            (root (absolute p found.1)) cs (root_cases _) (by rw [← hcomps]; exact comps_good path) hrender
          rw [h1]
          simp only
          unfold enterDir
          cases hch : sys.chdir w.cwd t with
          | none => exact ⟨rfl, hprep⟩
          | some n =>
            simp only
            obtain ⟨sh', out, h1, h2, h3, h4, h5, h6, h7, _⟩ := finish_total seed sys posix sh n (some p) true
              (print || found.2) path hprep.sane hprep.writable
            rw [h1]
            rw [hprint] at h7
            obtain ⟨h7, h8⟩ := h7 rfl
            refine ⟨found.1, h2, h3, ?_, h5.trans hprep.paths, hstands, fun _ => ?_, fun h => (by cases h),
              hold sh' h6⟩
            · intro m hm hm' d
              rw [h4 m hm hm', hprep.other m hm]
            · exact ⟨p, path, _, hb, hc, hden _ (ht.chdir _ _ _ hch), rfl, h7, h8⟩

theorem root_head (p : List Char) : root p ≠ [] ↔ p.head? = some '/' := by
  unfold root
  constructor
  · intro h
    split at h <;> first | rfl | exact absurd rfl h
  · intro h
    split
    · simp
    · simp
    · simp
    · rename_i hx
      cases p with
      | nil => cases h
      | cons c p =>
        simp only [List.head?_cons, Option.some.injEq] at h
        subst h
        exact absurd rfl (hx p)

/-- What an absolute path denotes does not depend on the working directory. -/
theorem denotes_absolute {N : Type} {fs : FileSystem N} {sys : Sys N} (ht : Truthful fs sys)
    (cwd cwd' : N) (p : Word) (n : N) (ha : p.head? = some '/') (hd : fs.isDir cwd' = true)
    (h : Denotes fs cwd p n) : Denotes fs cwd' p n := by
  obtain ⟨h1, h2, _, h4⟩ := h
  refine ⟨h1, h2, hd, ?_⟩
  have hr := root_cases p
  have hne := (root_head p).mpr ha
  rcases hr with hr | hr | hr
  · exact absurd hr hne
  · rw [hr] at h4 ⊢
    cases hs : fs.start ['/'] with
    | none => exact absurd hs ht.roots.1
    | some r => rw [hs] at h4; exact h4
  · rw [hr] at h4 ⊢
    cases hs : fs.start ['/', '/'] with
    | none => exact absurd hs ht.roots.2
    | some r => rw [hs] at h4; exact h4

/-- The last step of canonicalization keeps the directory. -/
theorem ex_denotes {N : Type} {fs : FileSystem N} {sys : Sys N} (ht : Truthful fs sys)
    (isDir : Word → Bool) (a path : Word) (cwd n : N) (ha : a.head? = some '/')
    (hc : canonicalize isDir a = .ok path) (hd : Denotes fs cwd path n) :
    (canonicalizeEx (sys.sameFile n "/".toList "/..".toList) path).head? = some '/' ∧
      Denotes fs n (canonicalizeEx (sys.sameFile n "/".toList "/..".toList) path) n := by
  obtain ⟨out, _, hrender, hcomps, hroot⟩ := (C31_canonical isDir a).2 path hc
  have hpa : path.head? = some '/' := by
    rw [← root_head, hroot, root_head]
    exact ha
  have hdn : Denotes fs n path n := denotes_absolute ht cwd n path n hpa hd.2.1 hd
  obtain ⟨h1, h2, h3⟩ := C31_root_parents isDir a path hc
  cases hsf : sys.sameFile n "/".toList "/..".toList with
  | false => rw [h3]; exact ⟨hpa, hdn⟩
  | true =>
    by_cases hr : root a = ['/']
    · obtain ⟨k, rest, hk, hrest, hex⟩ := h1 hr
      rw [hex]
      refine ⟨rfl, ?_⟩
      have hsame := ht.sameFile n _ _ hsf
      have hgood : ∀ x ∈ rest, Good x := by
        intro x hx
        apply comps_good path
        rw [hk]
        exact List.mem_append_right _ hx
      have hpar : ∀ r, fs.start ['/'] = some r → fs.walk r dotdot = some r := by
        intro r hst
        have hr1 : Denotes fs n "/".toList r := by
          refine ⟨by decide, fs.start_dir _ _ hst, hd.2.1, ?_⟩
          show follow fs ((fs.start ['/']).getD n) [] = some r
          rw [hst]; rfl
        have hr2 := ((hsame r).mp hr1).2.2.2
        have hr2 : follow fs ((fs.start ['/']).getD n) [dotdot] = some r := hr2
        rw [hst] at hr2
        simp only [Option.getD_some, follow] at hr2
        cases hw : fs.walk r dotdot with
        | none => rw [hw] at hr2; cases hr2
        | some m => rw [hw] at hr2; exact hr2
      rw [← C31_root_parents_same fs n n k rest hgood hpar ht.roots.1, ← hk, hcomps, ← hr, ← hrender]
      exact hdn
    · rw [h2 hr]; exact ⟨hpa, hdn⟩

/-- **C42.**  After `cd`, `$PWD` is an absolute path of the working directory, unless `cd -P` could not
find out the path. -/
theorem C42_named {N : Type} (fs : FileSystem N) (sys : Sys N) (ht : Truthful fs sys) (seed : Word → Bool)
    (posix : Bool) (w w' : World N) (operand : Word) (samePwd print logical : Bool) (out : Option Word)
    (hs : Sane w.sh) (hw : Writable w.sh "PWD".toList) (hp : NotWrong fs w)
    (h : changeDirectory seed sys posix w operand samePwd print logical = some (w', .success out))
    (hg : logical = false → sys.getcwd w'.cwd ≠ none) : Named fs w' := by
  have hm := cd_moved fs sys ht seed posix w operand samePwd print logical hs hw hp
  rw [h] at hm
  obtain ⟨p, hm⟩ := hm
  cases hl : logical with
  | true =>
    obtain ⟨orig, path, new, hb, hc, hd, hn, hv, _⟩ := hm.place hl
    have ha := (absolute_joined orig p hb.1).2.1
    refine ⟨new, hv, ?_⟩
    cases posix with
    | true =>
      simp only [if_true] at hn
      subst hn
      have hroot := ((C31_canonical _ _).2 _ hc)
      obtain ⟨_, _, _, _, hroot⟩ := hroot
      have hpa : new.head? = some '/' := by
        rw [← root_head, hroot, root_head]
        exact ha
      exact ⟨hpa, denotes_absolute ht _ _ _ _ hpa hd.2.1 hd⟩
    | false =>
      simp only [Bool.false_eq_true, if_false] at hn
      subst hn
      exact ex_denotes ht _ _ _ _ _ ha hc hd
  | false =>
    cases hc : sys.getcwd w'.cwd with
    | none => exact absurd hc (hg hl)
    | some new => exact ⟨new, ((hm.physical hl).2.1 new hc).1, ht.getcwd _ _ hc⟩

/-- **C42.**  If `cd` fails, the working directory is the same, and so is `$PWD` except that it may have
got a right value if it had none. -/
theorem C42_failed {N : Type} (fs : FileSystem N) (sys : Sys N) (ht : Truthful fs sys) (seed : Word → Bool)
    (posix : Bool) (w w' : World N) (operand : Word) (samePwd print logical : Bool)
    (hs : Sane w.sh) (hw : Writable w.sh "PWD".toList) (hp : NotWrong fs w)
    (h : changeDirectory seed sys posix w operand samePwd print logical = some (w', .failure)) :
    w'.cwd = w.cwd ∧ SameExcept ["PWD".toList] w.sh w'.sh ∧
      (w'.sh = w.sh ∨ ((∀ p, Value w.sh "PWD".toList p → p.head? ≠ some '/') ∧ Named fs w')) := by
  have hm := cd_moved fs sys ht seed posix w operand samePwd print logical hs hw hp
  rw [h] at hm
  obtain ⟨h1, hm⟩ := hm
  refine ⟨h1, fun m hm' => hm.other m (fun h => hm' (List.mem_singleton.mpr h)), ?_⟩
  rcases hm.pwd with h2 | ⟨h2, p, h3, h4⟩
  · exact Or.inl h2
  · refine Or.inr ⟨h2, p, h4, ?_⟩
    rw [h1]
    exact ht.getcwd _ _ h3

/-- **C42.**  `cd` changes no variables but `PWD` and `OLDPWD`, and `$OLDPWD` is the path of the directory
where the shell was before. -/
theorem C42_variables {N : Type} (fs : FileSystem N) (sys : Sys N) (ht : Truthful fs sys)
    (seed : Word → Bool) (posix : Bool) (w w' : World N) (operand : Word) (samePwd print logical : Bool)
    (out : Option Word) (hs : Sane w.sh) (hw : Writable w.sh "PWD".toList) (hp : NotWrong fs w)
    (h : changeDirectory seed sys posix w operand samePwd print logical = some (w', .success out)) :
    SameExcept ["PWD".toList, "OLDPWD".toList] w.sh w'.sh ∧
      (Writable w.sh "OLDPWD".toList → ∀ orig, Before sys w orig → Value w'.sh "OLDPWD".toList orig) := by
  have hm := cd_moved fs sys ht seed posix w operand samePwd print logical hs hw hp
  rw [h] at hm
  obtain ⟨p, hm⟩ := hm
  refine ⟨fun m hm' => ?_, hm.oldpwd⟩
  simp only [List.mem_cons, List.not_mem_nil, or_false, not_or] at hm'
  exact hm.other m hm'.1 hm'.2

/-- **C42.**  Where `cd` goes.  The operand stands for a path `p`; without `-P`, the new `$PWD` consists of
the components of `p`, or those of the old `$PWD` and then those of `p`, that remain when dot
components are removed and dot-dot components are removed together with what precedes them; dot-dot
components at the beginning are removed if the parent of the root is the root, but not in POSIX
mode.  With `-P`, the new directory is the one that the system finds for `p`. -/
theorem C42_place {N : Type} (fs : FileSystem N) (sys : Sys N) (ht : Truthful fs sys)
    (seed : Word → Bool) (posix : Bool) (w w' : World N) (operand : Word) (samePwd print logical : Bool)
    (out : Option Word) (hs : Sane w.sh) (hw : Writable w.sh "PWD".toList) (hp : NotWrong fs w)
    (h : changeDirectory seed sys posix w operand samePwd print logical = some (w', .success out)) :
    ∃ p, StandsFor (sys.isDir w.cwd) (getPathArray w.sh.scopes "CDPATH".toList) operand p ∧
      (logical = true → ∃ orig new k, Before sys w orig ∧ Value w'.sh "PWD".toList new ∧
        Simplified (joined orig p) (List.replicate k dotdot ++ comps new) ∧
        new = render (if p.head? = some '/' then root p else root orig) (comps new) ∧
        (k ≠ 0 → posix = false ∧ sys.sameFile w'.cwd "/".toList "/..".toList = true) ∧
        (posix = false → sys.sameFile w'.cwd "/".toList "/..".toList = true →
          (if p.head? = some '/' then root p else root orig) = ['/'] → dotdot ∉ comps new) ∧
        (out = if print = true ∨ p ≠ operand then some new else none)) ∧
      (logical = false → Denotes fs w.cwd p w'.cwd ∧
        ∀ new, sys.getcwd w'.cwd = some new → Value w'.sh "PWD".toList new ∧
          (out = if print = true ∨ p ≠ operand then some new else none)) := by
  have hm := cd_moved fs sys ht seed posix w operand samePwd print logical hs hw hp
  rw [h] at hm
  obtain ⟨p, hm⟩ := hm
  have hpr : ∀ new : Word, (if (print || p != operand) = true then some new else none) =
      if print = true ∨ p ≠ operand then some new else none := by
    intro new
    simp only [Bool.or_eq_true, bne_iff_ne]
  refine ⟨p, hm.standsFor, fun hl => ?_, fun hl => ?_⟩
  · obtain ⟨orig, path, new, hb, hc, hd, hn, hv, ho⟩ := hm.place hl
    obtain ⟨hj, ha, hr⟩ := absolute_joined orig p hb.1
    obtain ⟨cs, hsimp, hrender, hcomps, hroot⟩ := (C31_canonical _ _).2 path hc
    rw [hj] at hsimp
    rw [hpr] at ho
    have same : ∀ q, q = path → new = q → (posix = false →
        sys.sameFile w'.cwd "/".toList "/..".toList = true → root (absolute orig p) ≠ ['/']) → ∃ k, Simplified (joined orig p) (List.replicate k dotdot ++ comps new) ∧
        new = render (if p.head? = some '/' then root p else root orig) (comps new) ∧
        (k ≠ 0 → posix = false ∧ sys.sameFile w'.cwd "/".toList "/..".toList = true) ∧
        (posix = false → sys.sameFile w'.cwd "/".toList "/..".toList = true →
          (if p.head? = some '/' then root p else root orig) = ['/'] → dotdot ∉ comps new) := by
      intro q hq hn hnot
      refine ⟨0, ?_, ?_, fun h => absurd rfl h, fun h1 h2 h3 => absurd (by rw [hr]; exact h3) (hnot h1 h2)⟩
      · rw [hn, hq, hcomps]; exact hsimp
      · rw [hn, hq, hcomps, ← hr]; exact hrender
    obtain ⟨k, h1, h2, h3⟩ : ∃ k, Simplified (joined orig p) (List.replicate k dotdot ++ comps new) ∧
        new = render (if p.head? = some '/' then root p else root orig) (comps new) ∧
        (k ≠ 0 → posix = false ∧ sys.sameFile w'.cwd "/".toList "/..".toList = true) ∧
        (posix = false → sys.sameFile w'.cwd "/".toList "/..".toList = true →
          (if p.head? = some '/' then root p else root orig) = ['/'] → dotdot ∉ comps new) := by
      cases posix with
      | true => exact same path rfl hn (fun h => by cases h)
      | false =>
        simp only [Bool.false_eq_true, if_false] at hn
        obtain ⟨e1, e2, e3⟩ := C31_root_parents _ _ _ hc
        cases hsf : sys.sameFile w'.cwd "/".toList "/..".toList with
        | false => rw [hsf] at hn; rw [hsf] at same; exact same _ e3 hn (fun _ h => by cases h)
        | true =>
          rw [hsf] at hn
          by_cases hro : root (absolute orig p) = ['/']
          · obtain ⟨k, rest, hk, hrest, hex⟩ := e1 hro
            rw [hex] at hn
            have hg : ∀ x ∈ rest, Good x := by
              intro x hx
              apply comps_good path
              rw [hk]
              exact List.mem_append_right _ hx
            have hcn : comps new = rest := by
              rw [hn]
              exact comps_render ['/'] rest (Or.inr (Or.inl rfl)) hg
            refine ⟨k, ?_, ?_, fun _ => ⟨rfl, rfl⟩, fun _ _ _ hmem => (hrest dotdot (by rw [← hcn]; exact hmem)).2 rfl⟩
            · rw [hcn, ← hk, hcomps]; exact hsimp
            · rw [hcn, ← hr, hro]; exact hn
          · rw [hsf] at same; exact same _ (e2 hro) hn (fun _ _ => hro)
    exact ⟨orig, new, k, hb, hv, h1, h2, h3.1, h3.2, ho⟩
  · obtain ⟨h1, h2, _⟩ := hm.physical hl
    refine ⟨h1, fun new hn => ?_⟩
    obtain ⟨h3, h4⟩ := h2 new hn
    exact ⟨h3, by rw [h4, hpr]⟩

/-- **C42.**  If there are no symbolic links, `cd` goes to the directory that the system finds for the
path. -/
theorem C42_no_links {N : Type} (fs : FileSystem N) (hl : NoLinks fs) (sys : Sys N) (ht : Truthful fs sys)
    (seed : Word → Bool) (posix : Bool) (w w' : World N) (operand : Word) (samePwd print logical : Bool)
    (out : Option Word) (hs : Sane w.sh) (hw : Writable w.sh "PWD".toList) (hp : NotWrong fs w)
    (ho : operand ≠ [])
    (h : changeDirectory seed sys posix w operand samePwd print logical = some (w', .success out)) :
    ∃ p, StandsFor (sys.isDir w.cwd) (getPathArray w.sh.scopes "CDPATH".toList) operand p ∧
      Denotes fs w.cwd p w'.cwd := by
  have hm := cd_moved fs sys ht seed posix w operand samePwd print logical hs hw hp
  rw [h] at hm
  obtain ⟨p, hm⟩ := hm
  refine ⟨p, hm.standsFor, ?_⟩
  cases hlg : logical with
  | false => exact (hm.physical hlg).1
  | true =>
    obtain ⟨orig, path, new, hb, hc, hd, _⟩ := hm.place hlg
    obtain ⟨hj, ha, hr⟩ := absolute_joined orig p hb.1
    have hd' := (C31_same_directory fs hl w.cwd (sys.isDir w.cwd) (ht.isDir w.cwd) (absolute orig p) ha
      w'.cwd).mpr ⟨path, hc, hd⟩
    obtain ⟨h1, h2, h3, h4⟩ := hd'
    by_cases hpa : p.head? = some '/'
    · have : absolute orig p = p := by unfold absolute; rw [if_pos hpa]
      rw [← this]
      exact ⟨h1, h2, h3, h4⟩
    · rw [hj, hr, if_neg hpa, joined, if_neg hpa, follow_append] at h4
      have ho' := (hb.denotes ht hp).2.2.2
      rw [ho'] at h4
      refine ⟨?_, h2, h3, ?_⟩
      · rintro rfl
        have hst := hm.standsFor
        unfold StandsFor at hst
        simp only at hst
        by_cases hfix : operand = [] ∨ operand.head? = some '/' ∨ (comps operand).head? = some dot ∨
            (comps operand).head? = some dotdot
        · exact ho (hst.1 hfix).symm
        · rcases hst.2 hfix with ⟨_, dir, _, _, hin, _⟩ | ⟨hop, _⟩
          · rcases hin with ⟨_, hin⟩ | ⟨d, hdd, hin⟩ | ⟨_, _, hin⟩
            · exact ho hin.symm
            · rw [hdd] at hin; simp at hin
            · simp at hin
          · exact ho hop.symm
      · have hru : root p = [] := by
          cases hrr : root p with
          | nil => rfl
          | cons c r => exact absurd ((root_head p).mp (by rw [hrr]; simp)) hpa
        rw [hru, fs.start_rel]
        exact h4

/-- **C42.**  No assertion in `cd` fails, except one: with `-P`, when `$PWD` has been given a value that is
not an absolute path and the system cannot find out the path of the working directory. -/
theorem C42_no_abort {N : Type} (fs : FileSystem N) (sys : Sys N) (ht : Truthful fs sys)
    (seed : Word → Bool) (posix : Bool) (w : World N) (operand : Word) (samePwd print logical : Bool)
    (hs : Sane w.sh) (hw : Writable w.sh "PWD".toList) (hp : NotWrong fs w) :
    changeDirectory seed sys posix w operand samePwd print logical = none ↔
      logical = false ∧ samePwd = false ∧ sys.getcwd w.cwd = none ∧
        ∃ p, Value w.sh "PWD".toList p ∧ p.head? ≠ some '/' := by
  have hm := cd_moved fs sys ht seed posix w operand samePwd print logical hs hw hp
  have hiff : changeDirectory seed sys posix w operand samePwd print logical = none ↔
      prepare seed sys w samePwd logical = none := by
    constructor
    · intro h; rw [h] at hm; exact hm
    · intro h; unfold changeDirectory; rw [h]
  rw [hiff]
  unfold prepare
  simp only
  by_cases ha : (getvar w.sh pwdName).bind (·.head?) = some '/'
  · rw [if_pos ha]
    obtain ⟨p, h1, h2⟩ := (getvar_head _ _ _).mp ha
    rw [(getvar_value _ _ _).mpr h1]
    simp only [checkPrep, if_pos h2, reduceCtorEq, false_iff]
    rintro ⟨_, _, _, q, h3, h4⟩
    rw [value_unique _ _ _ _ h3 h1] at h4
    exact h4 h2
  · rw [if_neg ha]
    have hna := not_absolute _ _ ha
    cases samePwd with
    | true => simp
    | false =>
      simp only [Bool.false_eq_true, if_false]
      cases hc : sys.getcwd w.cwd with
      | none =>
        cases logical with
        | true => simp
        | false =>
          simp only [Bool.false_eq_true, if_false, true_and]
          cases hv : getvar w.sh pwdName with
          | none =>
            simp only [checkPrep, Bool.false_eq_true, if_false, reduceCtorEq, false_iff]
            rintro ⟨p, h1, _⟩
            rw [← getvar_value] at h1
            have h1 : getvar w.sh pwdName = some p := h1
            rw [hv] at h1
            cases h1
          | some p =>
            have := (getvar_value _ _ _).mp hv
            simp only [checkPrep, if_neg (hna p this), true_iff]
            exact ⟨p, this, hna p this⟩
      | some p =>
        obtain ⟨sh1, b, h1⟩ := setVariable_total seed w.sh pwdName p false hs
        obtain ⟨ha', hb⟩ := setVariable_assigned seed w.sh sh1 pwdName p false b hs h1
        have hb := hb hw
        subst hb
        simp only [h1, (getvar_value _ _ _).mpr (ha'.value hw).1, checkPrep, if_pos (ht.getcwd _ _ hc).1]
        simp

/-- **C42.**  `pwd` prints an absolute path of the working directory; without `-P`, this is `$PWD` if that
is right and has no dot or dot-dot components.  It fails only if the system cannot find out the
path. -/
theorem C42_pwd {N : Type} (fs : FileSystem N) (sys : Sys N) (ht : Truthful fs sys) (w : World N)
    (logical : Bool) (hd : fs.isDir w.cwd = true) :
    (∀ p, pwd sys w logical = some p → p.head? = some '/' ∧ Denotes fs w.cwd p w.cwd) ∧
    (pwd sys w logical = none → sys.getcwd w.cwd = none) ∧
    (∀ p, logical = true → Value w.sh "PWD".toList p → p.head? = some '/' → dot ∉ comps p →
      dotdot ∉ comps p → sys.sameFile w.cwd p ".".toList = true → pwd sys w logical = some p) := by
  have hdot : Denotes fs w.cwd ".".toList w.cwd := by
    refine ⟨by decide, hd, hd, ?_⟩
    show follow fs ((fs.start []).getD w.cwd) [dot] = some w.cwd
    rw [fs.start_rel]
    simp only [Option.getD_none, follow, fs.walk_dot _ hd, Option.bind_some]
  unfold pwd
  refine ⟨?_, ?_, ?_⟩
  · intro p h
    split at h
    · rename_i q hq
      split at h
      · rename_i hc
        cases h
        simp only [Bool.and_eq_true, decide_eq_true_eq] at hc
        exact ⟨hc.1.1.2, (ht.sameFile _ _ _ hc.2 _).mpr hdot⟩
      · exact ht.getcwd _ _ h
    · exact ht.getcwd _ _ h
  · intro h
    split at h
    · split at h
      · cases h
      · exact h
    · exact h
  · intro p hl hv ha h1 h2 hsf
    rw [show getvar w.sh pwdName = some p from (getvar_value _ _ _).mpr hv]
    simp only
    rw [if_pos]
    simp only [Bool.and_eq_true, decide_eq_true_eq]
    exact ⟨⟨⟨hl, ha⟩, (C31_normalized p).mpr ⟨h1, h2⟩⟩, hsf⟩

/-! ## The whole life of a shell -/

theorem cd_kept {N : Type} (fs : FileSystem N) (sys : Sys N) (ht : Truthful fs sys) (seed : Word → Bool)
    (posix : Bool) (w w' : World N) (operand : Word) (samePwd print logical : Bool) (r : CdResult)
    (hs : Sane w.sh) (hw : Writable w.sh "PWD".toList) (hp : NotWrong fs w)
    (h : changeDirectory seed sys posix w operand samePwd print logical = some (w', r)) :
    Sane w'.sh ∧ Writable w'.sh "PWD".toList := by
  have hm := cd_moved fs sys ht seed posix w operand samePwd print logical hs hw hp
  rw [h] at hm
  cases r with
  | success out => obtain ⟨p, hm⟩ := hm; exact ⟨hm.sane, hm.writable⟩
  | failure => exact ⟨hm.2.sane, hm.2.writable⟩

theorem cd_invariant {N : Type} (fs : FileSystem N) (sys : Sys N) (ht : Truthful fs sys)
    (seed : Word → Bool) (posix : Bool) (w w' : World N) (operand : Word) (samePwd print logical : Bool)
    (r : CdResult) (hs : Sane w.sh) (hw : Writable w.sh "PWD".toList) (hp : Named fs w)
    (hg : logical = false → sys.getcwd w'.cwd ≠ none)
    (h : changeDirectory seed sys posix w operand samePwd print logical = some (w', r)) :
    Sane w'.sh ∧ Writable w'.sh "PWD".toList ∧ Named fs w' := by
  obtain ⟨h1, h2⟩ := cd_kept fs sys ht seed posix w w' operand samePwd print logical r hs hw (Or.inl hp) h
  refine ⟨h1, h2, ?_⟩
  cases r with
  | success out => exact C42_named fs sys ht seed posix w w' operand samePwd print logical out hs hw (Or.inl hp) h hg
  | failure =>
    obtain ⟨h3, _, h4 | ⟨_, h4⟩⟩ := C42_failed fs sys ht seed posix w w' operand samePwd print logical hs hw
      (Or.inl hp) h
    · obtain ⟨p, hv, ha, hd⟩ := hp
      exact ⟨p, by rw [h4]; exact hv, ha, by rw [h3]; exact hd⟩
    · exact h4

theorem builtin_invariant {N : Type} (fs : FileSystem N) (sys : Sys N) (ht : Truthful fs sys)
    (seed : Word → Bool) (posix logical : Bool) (dflt : Option Word) (operands : List Word)
    (w w' : World N) (r : CdResult) (hs : Sane w.sh) (hw : Writable w.sh "PWD".toList) (hp : Named fs w)
    (hg : logical = false → sys.getcwd w'.cwd ≠ none)
    (h : cd seed sys posix w logical dflt operands = some (w', r)) :
    Sane w'.sh ∧ Writable w'.sh "PWD".toList ∧ Named fs w' := by
  have same : some (w, CdResult.failure) = some (w', r) →
      Sane w'.sh ∧ Writable w'.sh "PWD".toList ∧ Named fs w' := by
    intro h; cases h; exact ⟨hs, hw, hp⟩
  have go : ∀ d s p, changeDirectory seed sys posix w d s p logical = some (w', r) →
      Sane w'.sh ∧ Writable w'.sh "PWD".toList ∧ Named fs w' := fun d s p h =>
    cd_invariant fs sys ht seed posix w w' d s p logical r hs hw hp hg h
  unfold cd at h
  split at h
  · split at h
    · exact go _ _ _ h
    · split at h
      · exact same h
      · exact same h
      · exact go _ _ _ h
  · split at h
    · split at h
      · exact same h
      · exact same h
      · exact go _ _ _ h
    · exact go _ _ _ h
  · exact same h

/-- **C42.**  The built-in changes to the directory that its operands ask for; if they ask for none, it
fails and changes nothing. -/
theorem C42_operands {N : Type} (seed : Word → Bool) (sys : Sys N) (posix : Bool) (w : World N)
    (logical : Bool) (dflt : Option Word) (operands : List Word) :
    (∀ d print, AsksFor w.sh dflt operands d print →
      cd seed sys posix w logical dflt operands = changeDirectory seed sys posix w d false print logical) ∧
    ((∀ d print, ¬ AsksFor w.sh dflt operands d print) →
      cd seed sys posix w logical dflt operands = some (w, .failure)) := by
  constructor
  · intro d print h
    cases h with
    | default => rfl
    | home _ h1 h2 =>
      have := (getvar_value _ _ _).mpr h1
      simp only [cd]
      rw [this]
      cases d with
      | nil => exact absurd rfl h2
      | cons => rfl
    | back _ _ h1 h2 =>
      have : getvar w.sh oldpwdName = some d := (getvar_value _ _ _).mpr h1
      simp only [cd]
      rw [if_pos (by decide), this]
      cases d with
      | nil => exact absurd rfl h2
      | cons => rfl
    | operand _ _ h1 => simp only [cd]; exact if_neg h1
  · intro h
    unfold cd
    split
    · cases dflt with
      | some d => exact absurd (.default d) (h _ _)
      | none =>
        simp only
        split
        · rfl
        · rfl
        · rename_i d h1 h2
          exact absurd (.home d ((getvar_value _ _ _).mp h2) (by rintro rfl; exact h1 rfl)) (h _ _)
    · rename_i d
      split
      · rename_i hd
        subst hd
        split
        · rfl
        · rfl
        · rename_i d h1 h2
          exact absurd (.back _ d ((getvar_value _ _ _).mp h2) (by rintro rfl; exact h1 rfl)) (h _ _)
      · rename_i hd
        exact absurd (.operand _ d hd) (h _ _)
    · rfl

theorem find_of_get (m : Variable.Map Word) (n : Name) (w : Word) (h : get m n = some w) :
    m.find? (fun e => e.1 = n) = some (n, w) := by
  induction m with
  | nil => cases h
  | cons e m ih =>
    rw [Variable.get] at h
    split at h
    · rename_i he
      cases h
      rw [List.find?_cons_of_pos (by simpa using he), ← he]
    · rename_i he
      rw [List.find?_cons_of_neg (by simpa using he)]
      exact ih h

/-- What the environment gives to the shell. -/
theorem initEnvironment_value (env : Variable.Map Word) (hnd : (env.map (·.1)).Nodup) (n : Name) :
    (∀ e, get env n = some e → Value (Variable.initEnvironment env) n e) ∧
      Writable (Variable.initEnvironment env) n := by
  obtain ⟨s, h1, h2, h3⟩ := Variable.initEnvironment_vars env n hnd
  constructor
  · intro e he
    rw [he, Option.map_some] at h3
    rw [← getvar_value, getvar, h1]
    simp only [Variable.locate, h3]
  · intro d v hv
    rw [Variable.varAt_column, h1] at hv
    simp only [Variable.column, List.map_cons, List.map_nil, List.reverse_singleton, h3] at hv
    cases d with
    | zero =>
      simp only [List.getElem?_cons_zero, Option.some.injEq, Option.map_eq_some_iff] at hv
      obtain ⟨w, _, rfl⟩ := hv
      rfl
    | succ d => simp at hv

/-- **C42.**  When the shell has started, `$PWD` is an absolute path of the working directory if the system
can find out one. -/
theorem C42_initial {N : Type} (fs : FileSystem N) (sys : Sys N) (ht : Truthful fs sys) (seed : Word → Bool)
    (env : Variable.Map Word) (hnd : (env.map (·.1)).Nodup) (cwd : N) (hd : fs.isDir cwd = true)
    (hg : sys.getcwd cwd ≠ none) :
    ∃ w, initPwd seed sys ⟨Variable.initEnvironment env, cwd⟩ = some w ∧ w.cwd = cwd ∧ Named fs w ∧
      Sane w.sh ∧ Writable w.sh "PWD".toList ∧
      ∀ p, Value w.sh "PWD".toList p → sys.getcwd cwd = some p ∨
        (env.find? (fun e => e.1 = "PWD".toList) = some ("PWD".toList, p) ∧ dot ∉ comps p ∧ dotdot ∉ comps p) := by
  have hs : Sane (Variable.initEnvironment env) :=
    Variable.C25_sane seed (fun _ _ => True) _ (.start env hnd)
  obtain ⟨hval, hw⟩ := initEnvironment_value env hnd pwdName
  have hreset : ∃ w, resetPwd seed sys ⟨Variable.initEnvironment env, cwd⟩ = some w ∧ w.cwd = cwd ∧
      Named fs w ∧ Sane w.sh ∧ Writable w.sh "PWD".toList ∧
      ∀ p, Value w.sh "PWD".toList p → sys.getcwd cwd = some p ∨
        (env.find? (fun e => e.1 = "PWD".toList) = some ("PWD".toList, p) ∧ dot ∉ comps p ∧ dotdot ∉ comps p) := by
    unfold resetPwd
    simp only
    cases hc : sys.getcwd cwd with
    | none => exact absurd hc hg
    | some p =>
      obtain ⟨sh1, b, h1⟩ := setVariable_total seed (Variable.initEnvironment env) pwdName p true hs
      obtain ⟨ha, _⟩ := setVariable_assigned seed _ sh1 pwdName p true b hs h1
      obtain ⟨hv, hw1⟩ := ha.value hw
      simp only [h1, Option.map_some]
      exact ⟨_, rfl, rfl, ⟨p, hv, ht.getcwd _ _ hc⟩, ha.sane, hw1,
        fun q hq => Or.inl (by rw [value_unique _ _ _ _ hq hv])⟩
  have hdot : Denotes fs cwd ".".toList cwd := by
    refine ⟨by decide, hd, hd, ?_⟩
    show follow fs ((fs.start []).getD cwd) [dot] = some cwd
    rw [fs.start_rel]
    simp only [Option.getD_none, follow, fs.walk_dot _ hd, Option.bind_some]
  unfold initPwd
  cases he : get env pwdName with
  | none =>
    have : get (Variable.initEnvironment env).environ pwdName = none := he
    simp only [this]
    exact hreset
  | some e =>
    have h1 : get (Variable.initEnvironment env).environ pwdName = some e := he
    have hv := hval e he
    simp only [h1]
    split
    · rename_i hc
      simp only [Bool.and_eq_true, decide_eq_true_eq] at hc
      rw [(getvar_value _ _ _).mpr hv]
      simp only
      split
      · rename_i hn
        refine ⟨_, rfl, rfl, ⟨e, hv, hc.1, (ht.sameFile _ _ _ hc.2 _).mpr hdot⟩, hs, hw, fun q hq => Or.inr ?_⟩
        rw [value_unique _ _ _ _ hq hv]
        refine ⟨?_, (C31_normalized e).mp hn⟩
        exact find_of_get env _ e he
      · exact hreset
    · exact hreset

theorem life_invariant {N : Type} (seed : Word → Bool) (fs : FileSystem N) (w : World N)
    (h : Life seed fs w) : Sane w.sh ∧ Writable w.sh "PWD".toList ∧ Named fs w := by
  induction h with
  | start fs sys env cwd w ht hnd hd hg h =>
    obtain ⟨w', h1, _, h2, h3, h4, _⟩ := C42_initial fs sys ht seed env hnd cwd hd hg
    rw [h] at h1
    cases h1
    exact ⟨h3, h4, h2⟩
  | cd fs sys posix logical dflt operands w w' r _ ht hg h ih =>
    exact builtin_invariant fs sys ht seed posix logical dflt operands w w' r ih.1 ih.2.1 ih.2.2 hg h
  | «variable» fs w op sh b _ hst hv hw ih =>
    obtain ⟨p, h1, h2, h3⟩ := ih.2.2
    exact ⟨(Variable.sane_iff sh).mpr
      (Variable.step_sane seed w.sh sh op b ((Variable.sane_iff w.sh).mp ih.1) hst), hw, p, (hv p).mpr h1, h2, h3⟩
  | files fs fs' w _ hv ih =>
    obtain ⟨p, h1, h2, _⟩ := ih.2.2
    exact ⟨ih.1, ih.2.1, p, h1, h2, hv p h1⟩

/-- **C42.**  During the whole life of a shell `$PWD` is an absolute path of the working directory. -/
theorem C42_always {N : Type} (seed : Word → Bool) (fs : FileSystem N) (w : World N)
    (h : Life seed fs w) : Named fs w := (life_invariant seed fs w h).2.2

/-! ## An example

A root with a directory `a` that has a directory `b`, and a symbolic link `l` in the root to `a/b`. -/

def exampleWalk (n : Fin 3) (c : Comp) : Option (Fin 3) :=
  if c = dot then some n
  else if c = dotdot then some (if n = 2 then 1 else 0)
  else if n = 0 ∧ c = "a".toList then some 1
  else if n = 0 ∧ c = "l".toList then some 2
  else if n = 1 ∧ c = "b".toList then some 2
  else none

def exampleFiles : FileSystem (Fin 3) where
  walk := exampleWalk
  start r := if r = [] then none else some 0
  isDir _ := true
  walk_dir _ _ _ _ := rfl
  start_dir _ _ _ := rfl
  walk_dot n _ := by simp [exampleWalk]
  start_rel := rfl

/-- System calls that always succeed if they can. -/
def exactSys (fs : FileSystem (Fin 3)) (getcwd : Fin 3 → Option Word) : Sys (Fin 3) where
  chdir cwd p :=
    if p = [] ∨ fs.isDir cwd = false then none
    else (follow fs ((fs.start (root p)).getD cwd) (comps p)).filter fs.isDir
  isDir cwd p :=
    decide (p ≠ []) && fs.isDir cwd &&
      ((follow fs ((fs.start (root p)).getD cwd) (comps p)).filter fs.isDir).isSome
  getcwd := getcwd
  sameFile cwd p q :=
    decide (p ≠ []) && decide (q ≠ []) &&
      (follow fs ((fs.start (root p)).getD cwd) (comps p) == follow fs ((fs.start (root q)).getD cwd) (comps q))

def exampleSys : Sys (Fin 3) :=
  exactSys exampleFiles fun n => some (if n = 0 then "/" else if n = 1 then "/a" else "/a/b").toList

theorem example_truthful : Truthful exampleFiles exampleSys where
  roots := ⟨by decide, by decide⟩
  chdir cwd p n h := by
    simp only [exampleSys, exactSys] at h
    split at h
    · cases h
    · rename_i hc
      rw [not_or] at hc
      rw [Option.filter_eq_some_iff] at h
      exact ⟨hc.1, h.2, rfl, h.1⟩
  isDir cwd p := by
    simp only [exampleSys, exactSys, Bool.and_eq_true, decide_eq_true_eq, Option.isSome_iff_exists,
      Option.filter_eq_some_iff]
    constructor
    · rintro ⟨⟨h1, h2⟩, n, h3, h4⟩; exact ⟨n, h1, h4, h2, h3⟩
    · rintro ⟨n, h1, h4, h2, h3⟩; exact ⟨⟨h1, h2⟩, n, h3, h4⟩
  getcwd cwd p h := by
    simp only [exampleSys, exactSys, Option.some.injEq] at h
    subst h
    have : ∀ n : Fin 3, n = 0 ∨ n = 1 ∨ n = 2 := by decide
    rcases this cwd with rfl | rfl | rfl
    · exact ⟨by decide, by decide, rfl, rfl, by decide⟩
    · exact ⟨by decide, by decide, rfl, rfl, by decide⟩
    · exact ⟨by decide, by decide, rfl, rfl, by decide⟩
  sameFile cwd p q h n := by
    simp only [exampleSys, exactSys, Bool.and_eq_true, decide_eq_true_eq, beq_iff_eq] at h
    unfold Denotes
    rw [h.2]
    simp [h.1.1, h.1.2]

/-- A shell that starts in `/a` with a wrong `PWD`, goes to the link, and from there to `..`: `$PWD` is
`/l` and then `/`. -/
def exampleStartCd : Option (World (Fin 3)) :=
  initPwd (fun _ => false) exampleSys ⟨Variable.initEnvironment [("PWD".toList, "/a/..".toList)], 1⟩

def exampleCd (operand : String) (w : World (Fin 3)) : Option (World (Fin 3)) :=
  (cd (fun _ => false) exampleSys false w true none [operand.toList]).map (·.1)

example :
    (exampleStartCd.map fun w => (w.cwd, getvar w.sh pwdName)) = some (1, some "/a".toList) ∧
    ((exampleStartCd.bind (exampleCd "../l")).map fun w => (w.cwd, getvar w.sh pwdName, getvar w.sh oldpwdName)) =
      some (2, some "/l".toList, some "/a".toList) ∧
    (((exampleStartCd.bind (exampleCd "../l")).bind (exampleCd "..")).map fun w => (w.cwd, getvar w.sh pwdName)) =
      some (0, some "/".toList) ∧
    (((exampleStartCd.bind (exampleCd "../l")).bind (exampleCd "-")).map fun w => (w.cwd, getvar w.sh pwdName)) =
      some (1, some "/a".toList) := by
  decide +kernel

/-- The assertion can fail: `PWD=x; cd -P /` in a directory that has been removed. -/
example : ∃ sh, Sane sh ∧ changeDirectory (fun _ => false) (exactSys exampleFiles fun _ => none) false ⟨sh, 1⟩
    "/".toList false false false = none :=
  ⟨_, Variable.C25_sane (fun _ => false) (fun _ _ => True) _ (.start [("PWD".toList, "x".toList)] (by decide)),
    by decide +kernel⟩

end Yash.Path
