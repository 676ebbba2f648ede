import Verif.Glob.Sound
/-!
# Nothing is found twice
-/
set_option autoImplicit false

namespace Yash.Glob

open Fnmatch (Compiled Locale xfnmMatch)
open Spec (Sane dirOf)

/-- The name below `path` in a pathname. -/
def firstName (path r : Path) : Path := (r.drop path.length).takeWhile (· != '/')

theorem takeWhile_name {n tail : Path} (hn : '/' ∉ n) (ht : tail = [] ∨ ∃ q, tail = '/' :: q) :
    (n ++ tail).takeWhile (· != '/') = n := by
  induction n with
  | nil =>
    rcases ht with rfl | ⟨q, rfl⟩
    · rfl
    · simp
  | cons c n ih =>
    have hc : c ≠ '/' := fun e => hn (by simp [e])
    simp only [List.cons_append]
    rw [List.takeWhile_cons_of_pos (by simpa using hc), ih (fun h => hn (by simp [h]))]

theorem firstName_eq {path n tail : Path} (hn : '/' ∉ n) (ht : tail = [] ∨ ∃ q, tail = '/' :: q) :
    firstName path (path ++ n ++ tail) = n := by
  unfold firstName
  rw [List.append_assoc, List.drop_left]
  exact takeWhile_name hn ht

theorem collect_nodup {f : Path → Option (List Path)} {key : Path → Path} {l : List Path}
    (hl : l.Nodup) (hf : ∀ n ∈ l, ∀ y, f n = some y → y.Nodup ∧ ∀ r ∈ y, key r = n) {res : List Path}
    (h : collect (l.map f) = some res) : res.Nodup ∧ ∀ r ∈ res, key r ∈ l := by
  induction l generalizing res with
  | nil =>
    simp only [List.map_nil, collect, Option.some.injEq] at h
    subst h
    simp
  | cons n l ih =>
    simp only [List.map_cons] at h
    cases hn : f n with
    | none => rw [hn] at h; simp [collect] at h
    | some y =>
      rw [hn] at h
      simp only [collect] at h
      cases hc : collect (l.map f) with
      | none => rw [hc] at h; cases h
      | some r' =>
        rw [hc] at h
        simp only [Option.some.injEq] at h
        subst h
        obtain ⟨h1, h2⟩ := ih (List.nodup_cons.mp hl).2 (fun m hm => hf m (by simp [hm])) hc
        obtain ⟨g1, g2⟩ := hf n (by simp) y hn
        refine ⟨List.nodup_append.mpr ⟨g1, h1, ?_⟩, ?_⟩
        · rintro a ha b hb rfl
          have := h2 a hb
          rw [g2 a ha] at this
          exact (List.nodup_cons.mp hl).1 this
        · intro r hr
          rcases List.mem_append.mp hr with hr | hr
          · rw [g2 r hr]; simp
          · exact List.mem_cons_of_mem _ (h2 r hr)

section
variable (loc : Locale) (fs : FS) (junk : Path → Stat) (comps : List Comp) (flags : GlobFlags)

theorem addResult_length (path : Path) (ex mark : Bool) : (addResult fs path ex mark).length ≤ 1 := by
  unfold addResult
  split
  · simp
  · split
    · split <;> simp
    · split <;> simp

theorem step_results_length (name path : Path) (ex last : Bool) (prev : List Frame) (c : Comp)
    (a cur : Nat) (st : Stat) :
    (stepComponent loc fs flags name path ex last prev c a cur st).results.length ≤ 1 ∧
      (last = false → (stepComponent loc fs flags name path ex last prev c a cur st).results = []) := by
  by_cases ht : a ≠ 0 ∧ Takes loc name c
  · rw [step_takes loc fs flags ht.1 ht.2]
    cases last with
    | true => exact ⟨by simp only [if_true]; exact addResult_length fs _ _ _, by simp⟩
    | false => simp
  · rw [(step_not_takes loc fs flags (by
      by_cases ha : a = 0
      · exact Or.inl ha
      · exact Or.inr (fun e => ht ⟨ha, e⟩))).1]
    simp

theorem entry_results_length (name path : Path) (ex : Bool) (prev : List Frame) (cs : List Comp)
    (as : List Nat) (cur : Nat) (st : Stat) :
    (entryLoop loc fs flags name path ex prev cs as cur st).1.length ≤ 1 := by
  induction cs generalizing as cur st with
  | nil => simp [entryLoop]
  | cons c cs ih =>
    cases as with
    | nil => simp [entryLoop]
    | cons a as =>
      have hs := step_results_length loc fs flags name path ex cs.isEmpty prev c a cur st
      simp only [entryLoop, List.length_append]
      cases cs with
      | nil =>
        have : ∀ cur st, (entryLoop loc fs flags name path ex prev [] as cur st).1 = [] := by
          intro cur st
          cases as <;> rfl
        rw [this]
        simpa using hs.1
      | cons c' cs =>
        rw [hs.2 rfl]
        simpa using ih as _ _

/-- The last component is a pattern. -/
def LastMatch : Prop := ∃ x, comps.getLast? = some (.match x)

theorem last_comp {c : Comp} {i : Nat} (hc : comps[i]? = some c) (hi : i + 1 = comps.length) :
    comps.getLast? = some c := by
  rw [List.getLast?_eq_getElem?, ← hi]
  exact hc

theorem search_nodup (hs : Sane fs) (hlit : ∀ n, Comp.literal n ∈ comps → '/' ∉ n) (fuel : Nat)
    (path : Path) (prev : List Frame) (t : Frame) (res : List Path)
    (h : search loc fs junk comps flags fuel path prev t = some res) :
    res.Nodup ∧ (∀ r ∈ res, path <+: r) ∧ (LastMatch comps → path ∉ res) := by
  induction fuel generalizing path prev t res with
  | zero => simp [search] at h
  | succ fuel ih =>
    rw [search] at h
    generalize activate comps t.active = act at h
    generalize (⟨act, t.st⟩ : Frame) :: prev = prev' at h
    have entry : ∀ (ex : Bool) (name : Path) (y : List Path), '/' ∉ name →
        scandirEntry loc fs junk comps flags (search loc fs junk comps flags fuel) path prev' act
          ex name = some y →
        y.Nodup ∧ (∀ r ∈ y, firstName path r = name) ∧ (∀ r ∈ y, path <+: r) ∧
          (LastMatch comps → path ∉ y) := by
      intro ex name y hsl hy
      unfold scandirEntry at hy
      have hlen := entry_results_length loc fs flags name (path ++ name) ex prev' comps act 0
        (junk (path ++ name))
      generalize hloop : entryLoop loc fs flags name (path ++ name) ex prev' comps act 0
        (junk (path ++ name)) = L at hy hlen
      simp only at hy
      cases hse : search loc fs junk comps flags fuel (path ++ name ++ ['/']) prev' ⟨L.2.1, L.2.2⟩ with
      | none => rw [hse] at hy; cases hy
      | some deeper =>
        rw [hse] at hy
        simp only [Option.some.injEq] at hy
        subst hy
        obtain ⟨i1, i2, i3⟩ := ih _ _ _ _ hse
        -- what is added for the name itself
        have here : ∀ r ∈ L.1, (r = path ++ name ∨ (r = path ++ name ++ ['/'] ∧ LastMatch comps)) ∧
            (LastMatch comps → name ≠ []) := by
          intro r hr
          rw [← hloop] at hr
          obtain ⟨i, c, a, h1, h2, h3, h4, h5, h6⟩ := entry_results loc fs flags hr
          have hlast := last_comp comps h1 h4
          rcases h5 with rfl | ⟨x, rfl, hne, -⟩
          · refine ⟨?_, ?_⟩
            · obtain ⟨-, h⟩ := addResult_mem fs h6
              rcases h with ⟨-, h, -⟩ | ⟨h, -⟩
              · cases h
              · exact Or.inl h
            · rintro ⟨x, hx⟩
              rw [hlast] at hx
              cases hx
          · refine ⟨?_, fun _ => hne⟩
            obtain ⟨-, h⟩ := addResult_mem fs h6
            rcases h with ⟨h, -⟩ | ⟨h, -⟩
            · exact Or.inr ⟨h, x, hlast⟩
            · exact Or.inl h
        refine ⟨?_, ?_, ?_, ?_⟩
        · apply List.nodup_append.mpr
          refine ⟨?_, i1, ?_⟩
          · match hL : L.1, hlen with
            | [], _ => exact List.nodup_nil
            | [r], _ => simp
            | _ :: _ :: _, hlen => simp at hlen
          · rintro r hr _ hr' rfl
            rcases (here r hr).1 with rfl | ⟨rfl, hlm⟩
            · have := (i2 _ hr').length_le
              simp at this
              omega
            · exact i3 hlm hr'
        · intro r hr
          rcases List.mem_append.mp hr with hr | hr
          · rcases (here r hr).1 with rfl | ⟨rfl, -⟩
            · simpa using firstName_eq (path := path) (tail := []) hsl (Or.inl rfl)
            · exact firstName_eq hsl (Or.inr ⟨[], rfl⟩)
          · obtain ⟨q, rfl⟩ := i2 r hr
            have := firstName_eq (path := path) (tail := '/' :: q) hsl (Or.inr ⟨q, rfl⟩)
            simpa using this
        · intro r hr
          rcases List.mem_append.mp hr with hr | hr
          · rcases (here r hr).1 with rfl | ⟨rfl, -⟩
            · exact List.prefix_append ..
            · rw [List.append_assoc]; exact List.prefix_append ..
          · refine List.IsPrefix.trans ?_ (i2 r hr)
            rw [List.append_assoc]; exact List.prefix_append ..
        · intro hlm hr
          rcases List.mem_append.mp hr with hr | hr
          · obtain ⟨h1, h2⟩ := here _ hr
            rcases h1 with h1 | ⟨h1, -⟩
            · have := congrArg List.length h1
              simp at this
              exact h2 hlm this
            · have := congrArg List.length h1
              simp at this
          · have := (i2 _ hr).length_le
            simp at this
            omega
    unfold searchDir at h
    split at h
    · rename_i names hn
      have hread : fs.readdir (dirOf path) = some names := by
        split at hn
        · exact hn
        · cases hn
      obtain ⟨hnd, hnames⟩ := hs.names _ _ hread
      obtain ⟨hall, hcol⟩ := collect_some h
      have hmem : ∀ r ∈ res, ∃ ex name y, '/' ∉ name ∧
          scandirEntry loc fs junk comps flags (search loc fs junk comps flags fuel) path prev' act
            ex name = some y ∧ r ∈ y := by
        intro r hr
        obtain ⟨y, hy, hry⟩ := (hcol r).mp hr
        rcases List.mem_cons.mp hy with hy | hy
        · exact ⟨_, _, y, by simp, hy.symm, hry⟩
        · obtain ⟨n, hn, hy⟩ := List.mem_map.mp hy
          exact ⟨_, _, y, (hnames n hn).2, hy, hry⟩
      refine ⟨?_, ?_, ?_⟩
      · obtain ⟨y, hy⟩ := hall _ (List.mem_cons_self ..)
        rw [hy] at h
        simp only [collect] at h
        generalize hc : collect (names.map (scandirEntry loc fs junk comps flags
          (search loc fs junk comps flags fuel) path prev' act false)) = cr at h
        cases cr with
        | none => cases h
        | some r' =>
          simp only [Option.some.injEq] at h
          subst h
          obtain ⟨g1, g2⟩ := collect_nodup (key := firstName path) hnd
            (fun n hn y hy => ⟨(entry _ _ _ (hnames n hn).2 hy).1,
              (entry _ _ _ (hnames n hn).2 hy).2.1⟩) hc
          obtain ⟨e1, e2, -⟩ := entry _ _ _ (by simp) hy
          refine List.nodup_append.mpr ⟨e1, g1, ?_⟩
          rintro r hr _ hr' rfl
          have := g2 r hr'
          rw [e2 r hr] at this
          exact (hnames _ this).1 rfl
      · intro r hr
        obtain ⟨ex, name, y, h1, h2, h3⟩ := hmem r hr
        exact (entry _ _ _ h1 h2).2.2.1 r h3
      · intro hlm hr
        obtain ⟨ex, name, y, h1, h2, h3⟩ := hmem _ hr
        exact (entry _ _ _ h1 h2).2.2.2 hlm h3
    · split at h
      · rename_i hone
        obtain ⟨⟨i, n⟩, hl⟩ := List.length_eq_one_iff.mp hone
        have hin : (i, n) ∈ activeLiterals 0 comps act := by rw [hl]; simp
        obtain ⟨j, hj, h1, -⟩ := mem_activeLiterals.mp hin
        rw [Nat.zero_add] at hj
        subst hj
        rw [hl] at h
        simp only [List.map_cons, List.map_nil] at h
        have hres : literalEach fs junk comps (search loc fs junk comps flags fuel) path prev' (i, n)
            = some res := by
          cases hle : literalEach fs junk comps (search loc fs junk comps flags fuel) path prev' (i, n) with
          | none => rw [hle] at h; simp [collect] at h
          | some y => rw [hle] at h; simpa [collect] using h
        unfold literalEach at hres
        split at hres
        · obtain ⟨i1, i2, i3⟩ := ih _ _ _ _ hres
          refine ⟨i1, ?_, ?_⟩
          · intro r hr
            refine List.IsPrefix.trans ?_ (i2 r hr)
            simp only [List.append_assoc]
            exact List.prefix_append ..
          · intro hlm hr
            have := (i2 _ hr).length_le
            simp at this
            omega
        · rename_i hlt
          simp only [Option.some.injEq] at hres
          subst hres
          have hi : i + 1 = comps.length := by
            have := (List.getElem?_eq_some_iff.mp h1).1
            simp only at hlt
            omega
          have hlast := last_comp comps h1 hi
          refine ⟨?_, ?_, ?_⟩
          · have := addResult_length fs (path ++ n) true false
            match hL : addResult fs (path ++ n) true false, this with
            | [], _ => simp [hL]
            | [r], _ => simp [hL]
            | _ :: _ :: _, hlen => simp [hL] at hlen
          · intro r hr
            obtain ⟨-, h⟩ := addResult_mem fs hr
            rcases h with ⟨-, h, -⟩ | ⟨rfl, -⟩
            · cases h
            · exact List.prefix_append ..
          · rintro ⟨x, hx⟩
            rw [hlast] at hx
            cases hx
      · have hsl : ∀ n ∈ uniqueNames ((activeLiterals 0 comps act).map (·.2)), '/' ∉ n := by
          intro n hn
          rw [mem_uniqueNames] at hn
          obtain ⟨⟨i, n'⟩, hin, rfl⟩ := List.mem_map.mp hn
          obtain ⟨j, -, h1, -⟩ := mem_activeLiterals.mp hin
          exact hlit _ (List.mem_of_getElem? h1)
        obtain ⟨g1, -⟩ := collect_nodup (key := firstName path) (nodup_uniqueNames _)
          (fun n hn y hy => ⟨(entry _ _ _ (hsl n hn) hy).1, (entry _ _ _ (hsl n hn) hy).2.1⟩) h
        obtain ⟨-, hcol⟩ := collect_some h
        refine ⟨g1, ?_, ?_⟩
        · intro r hr
          obtain ⟨y, hy, hry⟩ := (hcol r).mp hr
          obtain ⟨n, hn, hy⟩ := List.mem_map.mp hy
          exact (entry _ _ _ (hsl n hn) hy).2.2.1 r hry
        · intro hlm hr
          obtain ⟨y, hy, hry⟩ := (hcol _).mp hr
          obtain ⟨n, hn, hy⟩ := List.mem_map.mp hy
          exact (entry _ _ _ (hsl n hn) hy).2.2.2 hlm hry

end

end Yash.Glob
