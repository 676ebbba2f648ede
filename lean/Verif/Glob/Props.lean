import Verif.Glob.Exact
import Verif.Glob.Complete
import Verif.Glob.Nodup
import Verif.Glob.Tree
/-!
# C69 and C70: pathname expansion
-/
set_option autoImplicit false

namespace Yash.Glob

open Fnmatch (Locale isMatchingPattern)
open Fnmatch.Spec (PlausiblePattern)
open Spec

variable (loc : Locale) (fs : FS) (junk : Path → Stat) (le : Path → Path → Bool)
  (enc : Path → Bool) (flags : GlobFlags)

theorem parse_nonempty {buf pat : Path} {comps : List Comp}
    (h : parsePattern enc flags buf pat = some comps) : comps ≠ [] := by
  cases pat with
  | nil =>
    rw [parsePattern] at h
    split at h
    · cases h; simp
    · cases h
  | cons c pat =>
    induction pat generalizing buf c with
    | nil =>
      rw [parsePattern] at h
      split at h
      · split at h
        · cases h
        · split at h
          · cases h; simp
          · cases h
      · rw [parsePattern] at h
        split at h
        · cases h; simp
        · cases h
    | cons d pat ih =>
      rw [parsePattern] at h
      split at h
      · split at h
        · cases h
        · split at h
          · cases h; simp
          · cases h
      · exact ih _ h

theorem start_active (comps : List Comp) (h : comps ≠ []) :
    (onlyActive comps 0).length = comps.length ∧ (∀ a ∈ onlyActive comps 0, a < 256) ∧
      (onlyActive comps 0)[0]? = some 1 ∧ ∀ (i a : Nat), (onlyActive comps 0)[i]? = some a → a ≠ 0 → i = 0 := by
  cases comps with
  | nil => exact absurd rfl h
  | cons c cs =>
    simp only [onlyActive, List.length_cons, List.replicate_succ, List.set_cons_zero]
    refine ⟨by simp, ?_, rfl, ?_⟩
    · intro a ha
      rcases List.mem_cons.mp ha with ha | ha
      · rw [ha]; decide
      · rw [(List.mem_replicate.mp ha).2]; decide
    · intro i a hi ha
      cases i with
      | zero => rfl
      | succ i =>
        exfalso
        rw [List.getElem?_cons_succ, List.getElem?_replicate] at hi
        split at hi
        · exact ha (Option.some.inj hi).symm
        · cases hi

/-- **C69.** Pathname expansion always ends, whatever the file system is like. -/
theorem C69_terminates (pattern : Path) :
    ∃ ok res, wglob loc fs junk le enc flags pattern = some (ok, res) := by
  unfold wglob
  cases hp : parsePattern enc flags [] pattern with
  | none => exact ⟨false, [], rfl⟩
  | some comps =>
    have hne := parse_nonempty enc flags hp
    obtain ⟨h1, h2, -, -⟩ := start_active comps hne
    obtain ⟨res, hres⟩ := search_some loc fs junk comps flags (256 * comps.length + 1) [] []
      ⟨onlyActive comps 0, junk []⟩ h1 h2
      (by
        have := rank_lt (onlyActive comps 0)
        simp only at this ⊢
        omega)
    simp only [hres]
    exact ⟨true, _, rfl⟩

theorem wglob_some {pattern : Path} {ok : Bool} {res : List Path} {comps : List Comp}
    (hp : parsePattern enc flags [] pattern = some comps)
    (h : wglob loc fs junk le enc flags pattern = some (ok, res)) :
    ok = true ∧ ∃ res', search loc fs junk comps flags (256 * comps.length + 1) [] []
      ⟨onlyActive comps 0, junk []⟩ = some res' ∧ res.Perm res' ∧
      res = (if flags.nosort then res' else res'.mergeSort le) := by
  unfold wglob at h
  rw [hp] at h
  simp only at h
  cases hs : search loc fs junk comps flags (256 * comps.length + 1) [] []
    ⟨onlyActive comps 0, junk []⟩ with
  | none => rw [hs] at h; cases h
  | some res' =>
    rw [hs] at h
    simp only [Option.some.injEq, Prod.mk.injEq] at h
    refine ⟨h.1.symm, res', rfl, ?_, h.2.symm⟩
    rw [← h.2]
    split
    · exact List.Perm.refl _
    · exact List.mergeSort_perm _ _

/-- **C69.** Every pathname that is found matches the pattern and refers to something in the file
system.  The pattern is divided at its slashes and its components are read as POSIX says; the names
in it can be encoded. -/
theorem C69_sound (hs : Sane fs) (hdot : ∀ c, loc.same c '.' = true → c = '.') (pattern : Path)
    (parts : List Part) (hd : Divides isMatchingPattern flags.recdir pattern parts)
    (hp : ∀ as, Part.pattern as ∈ parts → PlausiblePattern as)
    (he : ∀ n, Part.name n ∈ parts → enc n = true) (ok : Bool) (res : List Path)
    (h : wglob loc fs junk le enc flags pattern = some (ok, res)) :
    ok = true ∧ ∀ r ∈ res, Finds loc fs
      { icase := flags.casefold, dotglob := flags.period, markdirs := flags.mark }
      (Weak fs) (Weak fs) parts [] r := by
  obtain ⟨comps, h1, h2, h3, h4⟩ := parse_divides (loc := loc) enc flags hdot hd hp he
  obtain ⟨hok, res', hres, hperm, -⟩ := wglob_some loc fs junk le enc flags h1 h
  refine ⟨hok, fun r hr => ?_⟩
  obtain ⟨hl, -, -, h0⟩ := start_active comps h4
  obtain ⟨i, a, hi, ha, hf⟩ := search_sound loc fs junk comps flags hs h2 rfl h3 _ _ _ _ hl _ hres r
    (hperm.mem_iff.mp hr)
  have := h0 i a hi ha
  subst this
  exact hf

/-- **C69.** A pattern with a name that cannot be encoded in the locale finds nothing. -/
theorem C69_unencodable (pattern : Path) (parts : List Part)
    (hd : Divides isMatchingPattern flags.recdir pattern parts) (n : Path)
    (hn : Part.name n ∈ parts) (he : enc n = false) :
    wglob loc fs junk le enc flags pattern = some (false, []) := by
  unfold wglob
  rw [parse_unencodable enc flags hd n hn he]

/-- **C69.** No pathname is found twice. -/
theorem C69_nodup (hs : Sane fs) (hdot : ∀ c, loc.same c '.' = true → c = '.') (pattern : Path)
    (parts : List Part) (hd : Divides isMatchingPattern flags.recdir pattern parts)
    (hp : ∀ as, Part.pattern as ∈ parts → PlausiblePattern as)
    (he : ∀ n, Part.name n ∈ parts → enc n = true) (ok : Bool) (res : List Path)
    (h : wglob loc fs junk le enc flags pattern = some (ok, res)) : res.Nodup := by
  obtain ⟨comps, h1, h2, h3, h4⟩ := parse_divides (loc := loc) enc flags hdot hd hp he
  obtain ⟨hok, res', hres, hperm, -⟩ := wglob_some loc fs junk le enc flags h1 h
  exact hperm.nodup_iff.mpr (search_nodup loc fs junk comps flags hs h3 _ _ _ _ _ hres).1

/-- **C69.** The pathnames are in the collation order of the locale. -/
theorem C69_sorted (htrans : ∀ a b c, le a b = true → le b c = true → le a c = true)
    (htotal : ∀ a b, le a b = true ∨ le b a = true) (hns : flags.nosort = false) (pattern : Path)
    (ok : Bool) (res : List Path)
    (h : wglob loc fs junk le enc flags pattern = some (ok, res)) :
    res.Pairwise (fun a b => le a b = true) := by
  cases hp : parsePattern enc flags [] pattern with
  | none =>
    unfold wglob at h
    rw [hp] at h
    cases h
    exact .nil
  | some comps =>
    obtain ⟨-, res', -, -, hres⟩ := wglob_some loc fs junk le enc flags hp h
    rw [hres, hns]
    simp only [Bool.false_eq_true, if_false]
    exact List.pairwise_mergeSort htrans (fun a b => by simpa using htotal a b) _

/-- **C70.** Every pathname that matches is found, if the search for directories enters no directory
that it has already entered, and no more than 254 of them. -/
theorem C70_complete_partial (hs : Sane fs) (hdot : ∀ c, loc.same c '.' = true → c = '.') (pattern : Path)
    (parts : List Part) (hd : Divides isMatchingPattern flags.recdir pattern parts)
    (hp : ∀ as, Part.pattern as ∈ parts → PlausiblePattern as)
    (he : ∀ n, Part.name n ∈ parts → enc n = true) (ok : Bool) (res : List Path)
    (h : wglob loc fs junk le enc flags pattern = some (ok, res)) (r : Path)
    (hr : FindsOnce loc fs
      { icase := flags.casefold, dotglob := flags.period, markdirs := flags.mark }
      (Listed fs) (fun p n => Exists fs (p ++ n)) parts [] [] r) : r ∈ res := by
  obtain ⟨comps, h1, h2, h3, h4⟩ := parse_divides (loc := loc) enc flags hdot hd hp he
  obtain ⟨hok, res', hres, hperm, -⟩ := wglob_some loc fs junk le enc flags h1 h
  obtain ⟨hl, hb, h0, -⟩ := start_active comps h4
  refine hperm.mem_iff.mpr (search_complete loc fs junk comps flags hs h2 rfl h3 hr _ _ _ _ 0 1
    (Or.inl rfl) hl hb hres rfl ?_ (by decide) (by simp) ?_)
  · rw [activate_head]
    exact h0
  · intro k hk
    omega

/-- **C70.** In a file system where all directories can be read, all names refer to files, and no
directory contains itself, the pathnames that are found, and are no more than 254 directories deep,
are exactly those that match the pattern. -/
theorem C70_exact_partial (hs : Sane fs) (ht : Tame fs) (follow : Bool) (hn : NoLoop fs follow)
    (hdot : ∀ c, loc.same c '.' = true → c = '.') (pattern : Path)
    (parts : List Part) (hd : Divides isMatchingPattern flags.recdir pattern parts)
    (hfol : ∀ f h, Part.descend f h ∈ parts → f = true → follow = true)
    (hp : ∀ as, Part.pattern as ∈ parts → PlausiblePattern as)
    (he : ∀ n, Part.name n ∈ parts → enc n = true) (ok : Bool) (res : List Path)
    (h : wglob loc fs junk le enc flags pattern = some (ok, res)) (r : Path) (hr : slashes r ≤ 254) :
    r ∈ res ↔ Finds loc fs
      { icase := flags.casefold, dotglob := flags.period, markdirs := flags.mark }
      (Listed fs) (fun p n => Exists fs (p ++ n)) parts [] r := by
  constructor
  · intro hm
    exact finds_tame hs ht ((C69_sound loc fs junk le enc flags hs hdot pattern parts hd hp he ok res h).2 r hm)
      (divides_names hd) (Or.inl rfl)
  · intro hf
    refine C70_complete_partial loc fs junk le enc flags hs hdot pattern parts hd hp he ok res h r
      (finds_once hs hn hf hfol (by omega) [] (fun d hd => by cases hd) (Nat.zero_le _))

/-- **C69, C70.** Every pattern is divided into components in some way. -/
theorem C69_divides (extended : Bool) (pattern : Path) :
    ∃ parts, Divides isMatchingPattern extended pattern parts :=
  divides_total extended pattern

/-! ## The hypotheses can be met -/

/-- The options are all off, except that `**` is a search for directories. -/
def exampleFlags : GlobFlags :=
  { mark := false, casefold := false, period := false, nosort := true, recdir := true }

/-- `**/x` -/
theorem divides_example : Divides isMatchingPattern true ['*', '*', '/', 'x'] [.descend false false, .name ['x']] :=
  .keyword ['*', '*'] ['x'] _ _ _ rfl .plain (.last ['x'] _ (by decide) (.name ['x'] (by decide +kernel)))

theorem chain_dirs (j : Nat) : (List.replicate j ['d', '/']).flatten = [] ∨
    ∃ p', (List.replicate j ['d', '/']).flatten = p' ++ ['/'] := by
  cases j with
  | zero => exact Or.inl rfl
  | succ j =>
    exact Or.inr ⟨(List.replicate j ['d', '/']).flatten ++ ['d'], by
      rw [List.replicate_succ', List.flatten_append]
      simp⟩

theorem chain_names (j : Nat) :
    Tree.names (List.replicate j ['d', '/']).flatten = List.replicate j ['d'] := by
  induction j with
  | zero => rfl
  | succ j ih =>
    rw [List.replicate_succ', List.flatten_append, Tree.names_append (chain_dirs j), ih,
      List.replicate_succ']
    rfl

theorem enters_chain {k i : Nat} (hi : i < k) :
    Listed (Tree.chain k).fs (List.replicate i ['d', '/']).flatten ['d'] ∧
    Enters (Tree.chain k).fs false false (List.replicate i ['d', '/']).flatten ['d'] ⟨true, 0, i + 1⟩ := by
  have hstat : (Tree.chain k).fs.stat ((List.replicate i ['d', '/']).flatten ++ ['d']) =
      some ⟨true, 0, i + 1⟩ := by
    have hnm : Tree.names ((List.replicate i ['d', '/']).flatten ++ ['d']) =
        List.replicate (i + 1) ['d'] := by
      rw [Tree.names_append (chain_dirs i), chain_names, List.replicate_succ']
      rfl
    rw [Tree.stat_dir (by simp)]
    · rw [hnm]
      simp [Tree.chain]
    · rw [hnm]
      simp only [Tree.chain]
      rw [if_pos]
      simp
      omega
  refine ⟨(Tree.tame (Tree.chain_ok k) (Tree.chain_full k) _ _ (chain_dirs i) (by decide)
    (by decide)).mpr ⟨_, hstat⟩, by decide, by decide, ?_, by decide, by decide, hstat, rfl⟩
  intro _ n' h
  cases h

/-- In the directories `d`, `d/d`, …, the pattern `**/x` matches the file in the last one. -/
theorem finds_chain (k : Nat) : Finds Fnmatch.asciiLocale (Tree.chain k).fs ⟨false, false, false⟩
    (Listed (Tree.chain k).fs) (fun p n => Exists (Tree.chain k).fs (p ++ n))
    [.descend false false, .name ['x']] [] ((List.replicate k ['d', '/']).flatten ++ ['x']) := by
  suffices h : ∀ j i : Nat, i + j = k → Finds Fnmatch.asciiLocale (Tree.chain k).fs ⟨false, false, false⟩
      (Listed (Tree.chain k).fs) (fun p n => Exists (Tree.chain k).fs (p ++ n))
      [.descend false false, .name ['x']] (List.replicate i ['d', '/']).flatten
      ((List.replicate k ['d', '/']).flatten ++ ['x']) from h k 0 (by omega)
  intro j
  induction j with
  | zero =>
    intro i hi
    have : i = k := by omega
    subst this
    refine .here _ _ _ _ _ (.lastName _ _ ?_)
    refine (Tree.tame (Tree.chain_ok i) (Tree.chain_full i) _ _ (chain_dirs i) (by decide)
      (by decide)).mp ?_
    have hdir : (Tree.chain i).node (List.replicate i ['d']) = some true := by
      simp [Tree.chain]
    refine ⟨[['.'], ['x']], ?_, by decide⟩
    simp only [Tree.Nodes.fs, Tree.names_dirOf, chain_names, hdir]
    rw [if_pos]
    · simp [Tree.chain]
    · refine ⟨?_, trivial⟩
      unfold dirOf
      split
      · decide
      · assumption
  | succ j ih =>
    intro i hi
    have h := ih (i + 1) (by omega)
    rw [List.replicate_succ', List.flatten_append] at h
    refine .deeper _ _ ['d'] _ _ _ _ (enters_chain (by omega)).1 (enters_chain (by omega)).2 ?_
    simpa using h

/-- Finding: files that are 255 or more directories deep are not found, though they match, because
the depth is counted in an unsigned char. -/
theorem C70_depth_violated :
    Finds Fnmatch.asciiLocale (Tree.chain 255).fs ⟨false, false, false⟩
      (Listed (Tree.chain 255).fs) (fun p n => Exists (Tree.chain 255).fs (p ++ n))
      [.descend false false, .name ['x']] [] ((List.replicate 255 ['d', '/']).flatten ++ ['x']) ∧
    wglob Fnmatch.asciiLocale (Tree.chain 255).fs (fun _ => ⟨false, 0, 0⟩) (fun _ _ => true)
      (fun _ => true) exampleFlags ['*', '*', '/', 'x'] = some (true, []) :=
  ⟨finds_chain 255, by decide +kernel⟩

/-- At a depth of 254 the file is found. -/
example : wglob Fnmatch.asciiLocale (Tree.chain 254).fs (fun _ => ⟨false, 0, 0⟩) (fun _ _ => true)
    (fun _ => true) exampleFlags ['*', '*', '/', 'x'] =
      some (true, [(List.replicate 254 ['d', '/']).flatten ++ ['x']]) := by
  decide +kernel

theorem dot_example : ∀ c, Fnmatch.asciiLocale.same c '.' = true → c = '.' := by
  intro c h
  simp only [Fnmatch.asciiLocale, Bool.or_eq_true, Bool.and_eq_true, beq_iff_eq] at h
  rcases h with h | h
  · exact h
  · exact absurd h.1.2 (by decide)

/-- `C70_exact_partial` applies to a tree of directories and the pattern `**/x`. -/
example (k : Nat) (hk : k ≤ 254) (res : List Path) (ok : Bool)
    (h : wglob Fnmatch.asciiLocale (Tree.chain k).fs (fun _ => ⟨false, 0, 0⟩) (fun _ _ => true)
      (fun _ => true) exampleFlags ['*', '*', '/', 'x'] = some (ok, res)) :
    (List.replicate k ['d', '/']).flatten ++ ['x'] ∈ res := by
  refine (C70_exact_partial _ _ _ _ _ exampleFlags (Tree.sane (Tree.chain_ok k))
    (Tree.tame (Tree.chain_ok k) (Tree.chain_full k)) false (Tree.noLoop (fun _ => rfl) false) dot_example _ _
    divides_example (by simp) (by simp) (by simp) ok res h _ ?_).mpr (finds_chain k)
  have : ∀ k, slashes (List.replicate k ['d', '/']).flatten = k := by
    intro k
    induction k with
    | zero => rfl
    | succ k ih =>
      rw [List.replicate_succ, List.flatten_cons, slashes_append, ih]
      exact Nat.add_comm 1 k
  rw [slashes_append, this]
  exact Nat.le_trans (Nat.add_le_add_right hk 0) (by decide)

/-- `loop` is a symbolic link to the directory that contains it, beside a file `x`. -/
def loopFs : FS where
  readdir p := if Tree.names p |>.all (· == "loop".toList) then some [['.'], "loop".toList, ['x']] else none
  stat p :=
    match (Tree.names p).reverse with
    | [] => some ⟨true, 0, 1⟩
    | n :: r =>
      if r.all (· == "loop".toList) then
        if n = "loop".toList then some ⟨true, 0, 1⟩ else if n = ['x'] then some ⟨false, 0, 2⟩ else none
      else none
  lstat p :=
    match (Tree.names p).reverse with
    | [] => some ⟨true, 0, 1⟩
    | n :: r =>
      if r.all (· == "loop".toList) then
        if n = "loop".toList then some ⟨false, 0, 3⟩ else if n = ['x'] then some ⟨false, 0, 2⟩ else none
      else none

/-- Finding: the search does not enter a directory again through a symbolic link, but it does so when
another search for directories follows: `***/x` finds two pathnames, `***/**/x` finds 255, the longest
with 254 times `loop`. -/
theorem C70_loop_violated :
    wglob Fnmatch.asciiLocale loopFs (fun _ => ⟨false, 0, 0⟩) (fun _ _ => true) (fun _ => true)
      exampleFlags ['*', '*', '*', '/', 'x'] = some (true, ["loop/x".toList, ['x']]) ∧
    ∃ res, wglob Fnmatch.asciiLocale loopFs (fun _ => ⟨false, 0, 0⟩) (fun _ _ => true) (fun _ => true)
        exampleFlags ['*', '*', '*', '/', '*', '*', '/', 'x'] = some (true, res) ∧
      res.length = 255 ∧ (List.replicate 254 "loop/".toList).flatten ++ ['x'] ∈ res := by
  refine ⟨by decide +kernel, ?_⟩
  have h : ((wglob Fnmatch.asciiLocale loopFs (fun _ => ⟨false, 0, 0⟩) (fun _ _ => true) (fun _ => true)
      exampleFlags ['*', '*', '*', '/', '*', '*', '/', 'x']).any (fun x => x.1 && x.2.length == 255 &&
        x.2.contains ((List.replicate 254 "loop/".toList).flatten ++ ['x']))) = true := by
    decide +kernel
  obtain ⟨⟨ok, res⟩, hw, hp⟩ := Option.any_eq_true .. |>.mp h
  simp only [Bool.and_eq_true, beq_iff_eq, List.contains_iff_mem] at hp
  rw [hp.1.1] at hw
  exact ⟨res, hw, hp.1.2, hp.2⟩

end Yash.Glob
