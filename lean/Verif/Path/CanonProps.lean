import Verif.Path.CanonRun
/-!
# Theorems about path canonicalization
-/
set_option autoImplicit false

namespace Yash.Path

open Spec (Comp comps root render dot dotdot Step Steps Normal Simplified FileSystem follow Denotes
  NoLinks)

/-- Canonicalization of a path gives the path with the same root and the simplified components, joined
by single slashes; no memory outside the allocated buffer is written. -/
theorem C31_canonical (isDir : List Char → Bool) (path : List Char) :
    canonicalize isDir path ≠ .overflow ∧
    ∀ q, canonicalize isDir path = .ok q →
      ∃ out, Simplified (comps path) out ∧ q = render (root path) out ∧ comps q = out ∧
        root q = root path := by
  rw [canonicalize_run]
  cases h : run isDir (root path) [] (comps path) with
  | none => exact ⟨fun h => (by cases h), fun q h => (by cases h)⟩
  | some st =>
    refine ⟨fun h => (by cases h), fun q hq => ?_⟩
    simp only [toCanon, Canon.ok.injEq] at hq
    subst hq
    have hst := run_red _ _ _ _ _ h
    subst hst
    have hg : ∀ x ∈ (red [] (comps path)).reverse, Good x := by
      intro x hx
      rw [List.mem_reverse] at hx
      rcases red_mem _ _ x hx with h | h
      · cases h
      · exact comps_good path x h
    refine ⟨_, simplified_red _, rend_render _ _, ?_, ?_⟩
    · rw [rend_render, comps_render _ _ (root_cases path) hg]
    · rw [rend_render, root_render _ _ (root_cases path) hg]

example : canonicalize (fun _ => true) "///a/./b//../c/".toList = .ok "/a/c".toList := by
  decide +kernel

/-- What remains after the simplification of components is unique, and there always is one. -/
theorem C31_unique (cs : List Comp) : ∃ out, Simplified cs out ∧ ∀ out', Simplified cs out' → out' = out :=
  ⟨_, simplified_red cs, fun out' h => simplified_eq cs out' h⟩

/-- Canonicalization fails exactly if some dot-dot component comes after something that is not a
directory. -/
theorem C31_fails (isDir : List Char → Bool) (path : List Char) :
    canonicalize isDir path = .notDir ↔
      ∃ a b out x, comps path = a ++ dotdot :: b ∧ Simplified a (out ++ [x]) ∧ x ≠ dotdot ∧
        isDir (render (root path) (out ++ [x])) = false := by
  rw [canonicalize_run]
  generalize comps path = cs
  generalize root path = r
  have key : ∀ st, run isDir r st cs = none ↔ ∃ a b x st', cs = a ++ dotdot :: b ∧
      red st a = x :: st' ∧ x ≠ dotdot ∧ isDir (rend r (x :: st')) = false := by
    have hdot : dotdot ≠ dot := by decide
    induction cs with
    | nil =>
      intro st
      constructor
      · intro h; cases h
      · rintro ⟨a, b, x, st', h, _⟩
        exact absurd (congrArg List.length h) (by simp)
    | cons c cs ih =>
      intro st
      constructor
      · intro h
        have use : ∀ st', run isDir r st' cs = none → (∀ a, red st (c :: a) = red st' a) →
            ∃ a b x st', c :: cs = a ++ dotdot :: b ∧ red st a = x :: st' ∧ x ≠ dotdot ∧
              isDir (rend r (x :: st')) = false := by
          intro st' h1 h2
          obtain ⟨a, b, x, st'', rfl, h3, h4, h5⟩ := (ih st').mp h1
          exact ⟨c :: a, b, x, st'', rfl, by rw [h2, h3], h4, h5⟩
        cases st with
        | nil =>
          rw [run] at h
          split at h
          · exact use _ h (fun a => by rw [red, if_pos (by assumption)])
          · exact use _ h (fun a => by rw [red, if_neg (by assumption)])
        | cons x st =>
          rw [run] at h
          split at h
          · exact use _ h (fun a => by rw [red, if_pos (by assumption)])
          · split at h
            · rename_i h1 h2
              split at h
              · exact use _ h (fun a => by rw [red, if_neg h1, if_pos h2])
              · rename_i h3
                refine ⟨[], cs, x, st, by rw [h2.1]; rfl, rfl, h2.2, by simpa using h3⟩
            · rename_i h1 h2
              exact use _ h (fun a => by rw [red, if_neg h1, if_neg h2])
      · rintro ⟨a, b, x, st', h1, h2, h3, h4⟩
        rw [h1, run_append]
        cases hra : run isDir r st a with
        | none => rfl
        | some st'' =>
          have := run_red _ _ _ _ _ hra
          rw [h2] at this
          subst this
          show run isDir r (x :: st') (dotdot :: b) = none
          rw [run, if_neg hdot, if_pos ⟨rfl, h3⟩, if_neg (by simp [h4])]
  have hnil := key []
  have : toCanon r (run isDir r [] cs) = .notDir ↔ run isDir r [] cs = none := by
    cases run isDir r [] cs with
    | none => exact ⟨fun _ => rfl, fun _ => rfl⟩
    | some st => exact ⟨fun h => (by cases h), fun h => (by cases h)⟩
  rw [this, hnil]
  constructor
  · rintro ⟨a, b, x, st', h1, h2, h3, h4⟩
    refine ⟨a, b, st'.reverse, x, h1, ?_, h3, ?_⟩
    · rw [← List.reverse_cons, ← h2]; exact simplified_red a
    · rw [rend_render, List.reverse_cons] at h4; exact h4
  · rintro ⟨a, b, out, x, h1, h2, h3, h4⟩
    have := simplified_eq _ _ h2
    have hr : red [] a = x :: out.reverse := by
      rw [← List.reverse_reverse (red [] a), ← this]; simp
    refine ⟨a, b, x, out.reverse, h1, hr, h3, ?_⟩
    rw [rend_render]
    simpa using h4

example : canonicalize (fun s => s != "/a/f".toList) "/a/f/../c".toList = .notDir := by decide +kernel

/-- The result is not longer than the path. -/
theorem C31_length (isDir : List Char → Bool) (path q : List Char)
    (h : canonicalize isDir path = .ok q) : q.length ≤ path.length := by
  obtain ⟨out, ⟨h1, _⟩, rfl, _⟩ := (C31_canonical isDir path).2 q h
  rw [render, List.length_append, joined_length]
  have := weight_sublist _ _ (steps_sublist _ _ h1)
  have := root_comps_weight path
  omega

/-- Canonicalizing the result again does not change it, whatever files have become of it. -/
theorem C31_idempotent (isDir isDir' : List Char → Bool) (path q : List Char)
    (h : canonicalize isDir path = .ok q) : canonicalize isDir' q = .ok q := by
  obtain ⟨out, ⟨h1, h2⟩, h3, h4, h5⟩ := (C31_canonical isDir path).2 q h
  have hnf : canonicalize isDir' q ≠ .notDir := by
    rw [Ne, C31_fails]
    rintro ⟨a, b, out', x, h6, h7, h8, _⟩
    rw [h4] at h6
    have ha : Normal a := by rw [h6] at h2; exact h2.prefix
    have hrev := simplified_eq _ _ h7
    rw [red_normal a ha, List.reverse_reverse] at hrev
    have hn : Normal (out' ++ [x] ++ [dotdot]) := by
      have : out = out' ++ [x] ++ [dotdot] ++ b := by rw [h6, hrev]; simp
      rw [this] at h2; exact h2.prefix
    obtain ⟨k, rest, hk, hr⟩ := hn
    rcases List.eq_nil_or_concat rest with rfl | ⟨rest', y, rfl⟩
    · have hm : x ∈ List.replicate k dotdot := by
        rw [List.append_nil] at hk; rw [← hk]; simp
      exact h8 (List.eq_of_mem_replicate hm)
    · rw [List.concat_eq_append, ← List.append_assoc] at hk
      have := (List.append_inj' hk rfl).2
      simp only [List.cons.injEq, and_true] at this
      exact absurd this.symm (hr y (by simp)).2
  have hno := (C31_canonical isDir' q).1
  have hok := (C31_canonical isDir' q).2
  cases hq : canonicalize isDir' q with
  | overflow => exact absurd hq hno
  | notDir => exact absurd hq hnf
  | ok q' =>
    obtain ⟨out', h6, h7, _⟩ := hok q' hq
    have := simplified_eq _ _ h6
    rw [h4, red_normal out h2, List.reverse_reverse] at this
    rw [h7, h5, this, ← h3]

/-! ## The same directory -/

theorem follow_append {N : Type} (fs : FileSystem N) (n : N) (a b : List Comp) :
    follow fs n (a ++ b) = (follow fs n a).bind fun m => follow fs m b := by
  induction a generalizing n with
  | nil => rfl
  | cons c a ih =>
    rw [List.cons_append, follow, follow]
    cases fs.walk n c with
    | none => rfl
    | some m => exact ih m

theorem follow_dot {N : Type} (fs : FileSystem N) (n m : N) (b : List Comp)
    (hm : fs.isDir m = true) : follow fs n (dot :: b) = some m ↔ follow fs n b = some m := by
  rw [follow]
  constructor
  · intro h
    cases hw : fs.walk n dot with
    | none => rw [hw] at h; cases h
    | some k =>
      rw [hw] at h
      have := fs.walk_dot n (fs.walk_dir n dot k hw)
      rw [hw] at this
      cases this
      exact h
  · intro h
    have hd : fs.isDir n = true := by
      cases b with
      | nil => simp only [follow, Option.some.injEq] at h; rw [h]; exact hm
      | cons c b =>
        rw [follow] at h
        cases hw : fs.walk n c with
        | none => rw [hw] at h; cases h
        | some k => exact fs.walk_dir n c k hw
    rw [fs.walk_dot n hd]
    exact h

theorem follow_up {N : Type} (fs : FileSystem N) (hl : NoLinks fs) (n m : N) (x : Comp) (b : List Comp)
    (h1 : x ≠ dot) (h2 : x ≠ dotdot) (h : follow fs n (x :: dotdot :: b) = some m) :
    follow fs n b = some m ∧ ∃ k, fs.walk n x = some k ∧ fs.isDir k = true := by
  rw [follow] at h
  cases hw : fs.walk n x with
  | none => rw [hw] at h; cases h
  | some k =>
    rw [hw] at h
    simp only [Option.bind_some, follow] at h
    cases hd : fs.walk k dotdot with
    | none => rw [hd] at h; cases h
    | some j =>
      have hk := fs.walk_dir k dotdot j hd
      have := hl n x k h1 h2 hw hk
      rw [hd] at this
      cases this
      rw [hd] at h
      exact ⟨h, k, rfl, hk⟩

theorem follow_down {N : Type} (fs : FileSystem N) (hl : NoLinks fs) (n k m : N) (x : Comp)
    (b : List Comp) (h1 : x ≠ dot) (h2 : x ≠ dotdot) (hw : fs.walk n x = some k)
    (hk : fs.isDir k = true) (h : follow fs n b = some m) :
    follow fs n (x :: dotdot :: b) = some m := by
  rw [follow, hw]
  simp only [Option.bind_some, follow]
  rw [hl n x k h1 h2 hw hk]
  exact h

theorem run_follow {N : Type} (fs : FileSystem N) (hl : NoLinks fs) (isDir : List Char → Bool)
    (r : List Char) (s : N)
    (hdir : ∀ st, st ≠ [] → (∀ x ∈ st, Good x) → (isDir (rend r st) = true ↔
      ∃ k, follow fs s st.reverse = some k ∧ fs.isDir k = true))
    (m : N) (hm : fs.isDir m = true) (cs : List Comp) (hcs : ∀ x ∈ cs, Good x) :
    ∀ st, (∀ x ∈ st, Good x) → Normal st.reverse →
      (follow fs s (st.reverse ++ cs) = some m ↔
        ∃ st', run isDir r st cs = some st' ∧ follow fs s st'.reverse = some m) := by
  have hdot : dotdot ≠ dot := by decide
  induction cs with
  | nil =>
    intro st _ _
    rw [List.append_nil]
    exact ⟨fun h => ⟨st, rfl, h⟩, by rintro ⟨st', h, h'⟩; cases h; exact h'⟩
  | cons c cs ih =>
    have ih := ih (fun x hx => hcs x (List.mem_cons_of_mem _ hx))
    intro st hst hn
    by_cases hc : c = dot
    · subst hc
      rw [run_dot, ← ih st hst hn, follow_append, follow_append]
      cases follow fs s st.reverse with
      | none => exact Iff.rfl
      | some k => exact follow_dot fs k m cs hm
    · have push : run isDir r st (c :: cs) = run isDir r (c :: st) cs → Normal (c :: st).reverse →
          (follow fs s (st.reverse ++ c :: cs) = some m ↔
            ∃ st', run isDir r st (c :: cs) = some st' ∧ follow fs s st'.reverse = some m) := by
        intro h1 h2
        rw [h1, ← ih (c :: st) ?_ h2]
        · rw [List.reverse_cons, List.append_assoc]; exact Iff.rfl
        · intro x hx
          rw [List.mem_cons] at hx
          rcases hx with rfl | hx
          · exact hcs x (by simp)
          · exact hst x hx
      by_cases hdd : c = dotdot
      · subst hdd
        cases st with
        | nil =>
          exact push (by rw [run, if_neg hc]) ⟨1, [], rfl, fun _ h => (by cases h)⟩
        | cons x st =>
          rw [List.reverse_cons] at hn
          by_cases hx : x = dotdot
          · subst hx
            refine push (by rw [run, if_neg hc, if_neg (fun h => h.2 rfl)]) ?_
            rw [List.reverse_cons, List.reverse_cons]
            exact hn.dotdots
          · have hgood := hst
            have hst' : ∀ y ∈ st, Good y := fun y hy => hst y (List.mem_cons_of_mem _ hy)
            have hfa : follow fs s ((x :: st).reverse ++ dotdot :: cs) =
                (follow fs s st.reverse).bind fun k => follow fs k (x :: dotdot :: cs) := by
              rw [List.reverse_cons, List.append_assoc, follow_append]; rfl
            have hfb := follow_append fs s st.reverse cs
            rw [run, if_neg hc, if_pos ⟨rfl, hx⟩]
            constructor
            · intro h
              rw [hfa] at h
              cases hk : follow fs s st.reverse with
              | none => rw [hk] at h; cases h
              | some k =>
                rw [hk] at h
                obtain ⟨h1, j, h2, h3⟩ := follow_up fs hl k m x cs hn.last hx h
                have : isDir (rend r (x :: st)) = true :=
                  (hdir (x :: st) (by simp) hgood).mpr ⟨j, by
                    rw [List.reverse_cons, follow_append, hk]
                    simp only [Option.bind_some, follow, h2], h3⟩
                rw [if_pos this]
                exact (ih st hst' hn.prefix).mp (by rw [hfb, hk]; exact h1)
            · intro h
              split at h
              · rename_i hd
                obtain ⟨j, h2, h3⟩ := (hdir (x :: st) (by simp) hgood).mp hd
                have h1 := (ih st hst' hn.prefix).mpr h
                rw [hfb] at h1
                rw [hfa]
                cases hk : follow fs s st.reverse with
                | none => rw [hk] at h1; cases h1
                | some k =>
                  rw [hk] at h1
                  rw [List.reverse_cons, follow_append, hk] at h2
                  simp only [Option.bind_some, follow] at h2
                  refine follow_down fs hl k j m x cs hn.last hx ?_ h3 h1
                  cases hw : fs.walk k x with
                  | none => rw [hw] at h2; cases h2
                  | some j' => rw [hw] at h2; cases h2; rfl
              · obtain ⟨_, h, _⟩ := h; cases h
      · refine push ?_ ?_
        · cases st with
          | nil => rw [run, if_neg hc]
          | cons x st => rw [run, if_neg hc, if_neg (fun h => hdd h.1)]
        · rw [List.reverse_cons]
          exact hn.snoc hc hdd

/-- In a file system without symbolic links to directories, the canonicalized path of an absolute path
denotes the same directory; if the canonicalization fails, the path denotes none. -/
theorem C31_same_directory {N : Type} (fs : FileSystem N) (hl : NoLinks fs) (cwd : N)
    (isDir : List Char → Bool) (hdir : ∀ s, isDir s = true ↔ ∃ n, Denotes fs cwd s n)
    (path : List Char) (habs : path.head? = some '/') (n : N) :
    Denotes fs cwd path n ↔ ∃ q, canonicalize isDir path = .ok q ∧ Denotes fs cwd q n := by
  have hne : root path ≠ [] := by
    cases path with
    | nil => cases habs
    | cons c p =>
      simp only [List.head?_cons, Option.some.injEq] at habs
      subst habs
      unfold root
      split <;> simp_all
  have hrne : ∀ st, rend (root path) st ≠ [] := by
    intro st h
    rw [rend_render, render] at h
    exact hne (List.append_eq_nil_iff.mp h).1
  by_cases hm : fs.isDir n = true
  · by_cases hcwd : fs.isDir cwd = true
    · have hdir' : ∀ st, st ≠ [] → (∀ x ∈ st, Good x) → (isDir (rend (root path) st) = true ↔
          ∃ k, follow fs ((fs.start (root path)).getD cwd) st.reverse = some k ∧
            fs.isDir k = true) := by
        intro st _ hg
        have hg' : ∀ x ∈ st.reverse, Good x := fun x hx => hg x (by simpa using hx)
        rw [hdir]
        constructor
        · rintro ⟨k, _, h2, _, h3⟩
          rw [rend_render, root_render _ _ (root_cases path) hg',
            comps_render _ _ (root_cases path) hg'] at h3
          exact ⟨k, h3, h2⟩
        · rintro ⟨k, h1, h2⟩
          refine ⟨k, hrne st, h2, hcwd, ?_⟩
          rw [rend_render, root_render _ _ (root_cases path) hg',
            comps_render _ _ (root_cases path) hg']
          exact h1
      have key := run_follow fs hl isDir (root path) _ hdir' n hm (comps path) (comps_good path) []
        (fun _ h => (by cases h)) ⟨0, [], rfl, fun _ h => (by cases h)⟩
      rw [canonicalize_run]
      constructor
      · rintro ⟨_, _, _, h⟩
        obtain ⟨st', h1, h2⟩ := key.mp h
        have hg' : ∀ x ∈ st'.reverse, Good x := by
          intro x hx
          rw [List.mem_reverse, run_red _ _ _ _ _ h1] at hx
          rcases red_mem _ _ x hx with h | h
          · cases h
          · exact comps_good path x h
        rw [h1]
        refine ⟨rend (root path) st', rfl, hrne st', hm, hcwd, ?_⟩
        rw [rend_render, root_render _ _ (root_cases path) hg',
            comps_render _ _ (root_cases path) hg']
        exact h2
      · rintro ⟨q, h1, _, _, _, h2⟩
        cases hr : run isDir (root path) [] (comps path) with
        | none => rw [hr] at h1; cases h1
        | some st' =>
          rw [hr] at h1
          cases h1
          have hg' : ∀ x ∈ st'.reverse, Good x := by
            intro x hx
            rw [List.mem_reverse, run_red _ _ _ _ _ hr] at hx
            rcases red_mem _ _ x hx with h | h
            · cases h
            · exact comps_good path x h
          rw [rend_render, root_render _ _ (root_cases path) hg',
            comps_render _ _ (root_cases path) hg'] at h2
          refine ⟨?_, hm, hcwd, key.mpr ⟨st', hr, h2⟩⟩
          rintro rfl
          cases habs
    · exact ⟨fun h => absurd h.2.2.1 hcwd, fun ⟨_, _, h⟩ => absurd h.2.2.1 hcwd⟩
  · exact ⟨fun h => absurd h.2.1 hm, fun ⟨_, _, h⟩ => absurd h.2.1 hm⟩

/-- A file system in which every name is a directory, except that `f` is always a plain file. -/
def plainTree : FileSystem (List Comp) where
  walk n c :=
    if ['f'] ∈ n then none
    else if c = dot then some n else if c = dotdot then some n.dropLast else some (n ++ [c])
  start r := if r.isEmpty then none else some []
  isDir n := !decide (['f'] ∈ n)
  walk_dir n c m h := by
    by_cases hf : ['f'] ∈ n
    · simp [hf] at h
    · simp [hf]
  start_dir r n h := by
    split at h
    · cases h
    · cases h; rfl
  walk_dot n h := by
    rw [if_neg (by simpa using h), if_pos rfl]
  start_rel := rfl

example : NoLinks plainTree := by
  intro n c m h1 h2 hw hm
  simp only [plainTree] at hw hm ⊢
  rw [if_neg (by simpa using hm), if_neg (by decide), if_pos trivial]
  split at hw
  · cases hw
  · cases hw
    simp

/-- With no links the oracle of `C31_same_directory` exists. -/
example : ∃ isDir : List Char → Bool, ∀ s, isDir s = true ↔ ∃ n, Denotes plainTree [] s n :=
  ⟨fun s => @decide (∃ n, Denotes plainTree [] s n) (Classical.propDecidable _), fun s => by simp⟩

/-! ## The parent of the root -/

theorem removeRootParents_dotdots (k : Nat) (rest : List Comp) (hr : ∀ x ∈ rest, Good x)
    (hd : ∀ x ∈ rest, x ≠ dotdot) :
    removeRootParents (render ['/'] (List.replicate (k + 1) dotdot ++ rest)) =
      if rest.isEmpty then [] else render ['/'] rest := by
  induction k with
  | zero =>
    cases rest with
    | nil => decide +kernel
    | cons x rest =>
      have h1 : render ['/'] (List.replicate 1 dotdot ++ x :: rest) =
          '/' :: '.' :: '.' :: '/' :: List.intercalate ['/'] (x :: rest) := by
        simp [render, List.intercalate, dotdot]
      rw [h1, removeRootParents, if_pos (by rfl)]
      show removeRootParents ('/' :: List.intercalate ['/'] (x :: rest)) =
        '/' :: List.intercalate ['/'] (x :: rest)
      have hc := comps_joined (x :: rest) hr
      generalize List.intercalate ['/'] (x :: rest) = s at hc
      unfold removeRootParents
      split
      · rename_i s' h
        simp only [List.cons.injEq, true_and] at h
        rw [if_neg, h]
        intro hs
        subst h
        refine hd x (by simp) ?_
        have := (atDotdot_comp '.' ('.' :: s')).mp (by
          unfold startsWithRootParent at hs
          split at hs
          · rename_i h; cases h; rfl
          · rename_i h; cases h; rfl
          · cases hs)
        rw [comps_other '.' _ (by decide), this] at hc
        cases hc; rfl
      · rfl
  | succ k ih =>
    have h1 : render ['/'] (List.replicate (k + 1 + 1) dotdot ++ rest) =
        '/' :: '.' :: '.' :: render ['/'] (List.replicate (k + 1) dotdot ++ rest) := by
      rw [List.replicate_succ, List.replicate_succ]
      simp [render, List.intercalate, dotdot]
    rw [h1, removeRootParents, if_pos]
    · exact ih
    · rfl

/-- Where the parent of the root is the root itself, a path that the canonicalization has given loses
its dot-dot components, so that it has none any more; other roots and systems leave it as it is. -/
theorem C31_root_parents (isDir : List Char → Bool) (path q : List Char)
    (h : canonicalize isDir path = .ok q) :
    (root path = ['/'] → ∃ k rest, comps q = List.replicate k dotdot ++ rest ∧
      (∀ x ∈ rest, x ≠ dot ∧ x ≠ dotdot) ∧ canonicalizeEx true q = render ['/'] rest) ∧
    (root path ≠ ['/'] → canonicalizeEx true q = q) ∧ canonicalizeEx false q = q := by
  obtain ⟨out, ⟨_, h2⟩, h3, h4, h5⟩ := (C31_canonical isDir path).2 q h
  have hg : ∀ x ∈ out, Good x := by rw [← h4]; exact comps_good q
  refine ⟨fun hroot => ?_, fun hroot => ?_, by simp [canonicalizeEx]⟩
  · obtain ⟨k, rest, hk, hr⟩ := h2
    refine ⟨k, rest, by rw [h4, hk], hr, ?_⟩
    have hgr : ∀ x ∈ rest, Good x := fun x hx => hg x (by rw [hk]; exact List.mem_append_right _ hx)
    rw [h3, hroot, hk]
    cases k with
    | zero =>
      rw [List.replicate_zero, List.nil_append, canonicalizeEx, if_neg]
      simp only [Bool.and_true]
      intro hs
      have hc := comps_render ['/'] rest (Or.inr (Or.inl rfl)) hgr
      generalize render ['/'] rest = s at hs hc
      unfold startsWithRootParent at hs
      split at hs
      · refine absurd ?_ (hr dotdot (by rw [← hc]; decide)).2
        rfl
      · rename_i s'
        rw [comps_slash, comps_other '.' _ (by decide)] at hc
        refine absurd ?_ (hr dotdot (by rw [← hc]; simp [dotdot])).2
        rfl
      · cases hs
    | succ k =>
      rw [canonicalizeEx, if_pos, removeRootParents_dotdots k rest hgr (fun x hx => (hr x hx).2)]
      · cases rest with
        | nil => rfl
        | cons x rest => rfl
      · cases k with
        | zero =>
          cases rest with
          | nil => decide +kernel
          | cons x rest =>
            simp [render, List.intercalate, dotdot, startsWithRootParent]
        | succ k =>
          rw [List.replicate_succ, List.replicate_succ]
          simp [render, List.intercalate, dotdot, startsWithRootParent]
  · rw [canonicalizeEx, if_neg]
    simp only [Bool.and_true]
    intro hs
    apply hroot
    rw [← h5]
    unfold startsWithRootParent at hs
    split at hs
    · rfl
    · rfl
    · cases hs

example : canonicalizeEx true "/../../a".toList = "/a".toList := by decide +kernel

/-- If the parent of the root is the root, dropping the dot-dot components changes nothing. -/
theorem C31_root_parents_same {N : Type} (fs : FileSystem N) (cwd n : N) (k : Nat) (rest : List Comp)
    (hg : ∀ x ∈ rest, Good x)
    (hp : ∀ r, fs.start ['/'] = some r → fs.walk r dotdot = some r) (hs : fs.start ['/'] ≠ none) :
    Denotes fs cwd (render ['/'] (List.replicate k dotdot ++ rest)) n ↔
      Denotes fs cwd (render ['/'] rest) n := by
  have hgd : Good dotdot := ⟨by decide, by decide⟩
  have hg' : ∀ x ∈ List.replicate k dotdot ++ rest, Good x := by
    intro x hx
    rw [List.mem_append] at hx
    rcases hx with hx | hx
    · rw [List.eq_of_mem_replicate hx]; exact hgd
    · exact hg x hx
  unfold Denotes
  rw [comps_render _ _ (Or.inr (Or.inl rfl)) hg, comps_render _ _ (Or.inr (Or.inl rfl)) hg',
    root_render _ _ (Or.inr (Or.inl rfl)) hg, root_render _ _ (Or.inr (Or.inl rfl)) hg']
  cases hst : fs.start ['/'] with
  | none => exact absurd hst hs
  | some r =>
    simp only [Option.getD_some]
    have : follow fs r (List.replicate k dotdot ++ rest) = follow fs r rest := by
      induction k with
      | zero => rfl
      | succ k ih =>
        rw [List.replicate_succ, List.cons_append, follow, hp r hst]
        refine ih ?_
        intro x hx
        refine hg' x ?_
        rw [List.replicate_succ, List.cons_append]
        exact List.mem_cons_of_mem _ hx
    rw [this]
    simp [render]

/-! ## Normalized paths -/

/-- `pwd -L` and the start of the shell accept `$PWD` only if it has no dot and dot-dot components. -/
theorem C31_normalized (path : List Char) :
    isNormalizedAt path = true ↔ dot ∉ comps path ∧ dotdot ∉ comps path := by
  generalize hn : path.length = n
  induction n using Nat.strongRecOn generalizing path with
  | _ n ih =>
    cases path with
    | nil => rw [isNormalizedAt]; simp [comps]
    | cons c p =>
      rw [List.length_cons] at hn
      rw [isNormalizedAt]
      by_cases hc : c = '/'
      · subst hc
        rw [comps_slash, ← ih p.length (by omega) p rfl, if_neg (by simp)]
        simp only [List.dropWhile]
        rfl
      · rw [comps_other c p hc]
        have hlen := takeWhile_dropWhile_length p
        have hcond : (decide (c = '.') && (p.isEmpty || p.head? == some '/' ||
            (p.head? == some '.' && ((p.drop 1).isEmpty || (p.drop 1).head? == some '/')))) = true ↔
            c :: p.takeWhile (· != '/') = dot ∨ c :: p.takeWhile (· != '/') = dotdot := by
          rw [← atDotdot_comp]
          cases p with
          | nil => by_cases h : c = '.' <;> simp [h, dot, atDotdot]
          | cons d p =>
            by_cases hd : d = '/'
            · subst hd
              by_cases h : c = '.' <;> simp [h, dot, atDotdot]
            · have hb : (d != '/') = true := by simpa using hd
              cases p with
              | nil =>
                by_cases h : c = '.' <;> by_cases h' : d = '.' <;>
                  simp [h, h', hd, hb, dot, atDotdot, List.takeWhile]
              | cons e p =>
                by_cases h : c = '.' <;> by_cases h' : d = '.' <;> by_cases h'' : e = '/' <;>
                  simp [h, h', h'', hd, hb, dot, atDotdot, List.takeWhile]
        have hb : (c != '/') = true := by simpa using hc
        by_cases hx : c :: p.takeWhile (· != '/') = dot ∨ c :: p.takeWhile (· != '/') = dotdot
        · rw [if_pos (hcond.mpr hx)]
          simp only [Bool.false_eq_true, List.mem_cons, not_or, false_iff]
          rintro ⟨⟨h1, _⟩, ⟨h2, _⟩⟩
          rcases hx with h | h
          · exact h1 h.symm
          · exact h2 h.symm
        · rw [if_neg (fun h => hx (hcond.mp h))]
          have hrec : dot ∉ (c :: p.takeWhile (· != '/')) :: comps (p.dropWhile (· != '/')) ∧
              dotdot ∉ (c :: p.takeWhile (· != '/')) :: comps (p.dropWhile (· != '/')) ↔
              dot ∉ comps (p.dropWhile (· != '/')) ∧ dotdot ∉ comps (p.dropWhile (· != '/')) := by
            simp only [List.mem_cons, not_or]
            exact ⟨fun h => ⟨h.1.2, h.2.2⟩, fun h => ⟨⟨fun h' => hx (Or.inl h'.symm), h.1⟩,
              ⟨fun h' => hx (Or.inr h'.symm), h.2⟩⟩⟩
          rw [hrec]
          have hdw : (c :: p).dropWhile (· != '/') = p.dropWhile (· != '/') := by
            rw [List.dropWhile_cons, if_pos hb]
          split
          · rename_i h
            rw [hdw] at h
            rw [h]
            simp [comps]
          · rename_i e rest h
            rw [hdw] at h
            rcases dropWhile_head p with h' | h'
            · rw [h] at h'; cases h'
            · rw [h] at h'
              simp only [List.head?_cons, Option.some.injEq] at h'
              subst h'
              rw [h] at hlen ⊢
              rw [List.length_cons] at hlen
              rw [comps_slash]
              exact ih rest.length (by omega) rest rfl

example : isNormalizedAt "/a//b/..c/.d".toList = true := by decide +kernel

end Yash.Path
