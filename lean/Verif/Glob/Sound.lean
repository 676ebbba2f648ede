import Verif.Glob.Search
/-!
# What is found matches the pattern
-/
set_option autoImplicit false

namespace Yash.Glob

open Fnmatch (Compiled Locale xfnmMatch)
open Spec (Part Options NameMatches Finds Listed Exists IsDir Enters Shown dirOf Sane Weak)

/-- A component of the model and the component of the specification it stands for. -/
inductive Rep (loc : Locale) (o : Options) : Comp → Part → Prop
  | literal (n : Path) : Rep loc o (.literal n) (.name n)
  | «match» (x : Compiled) (as : List Fnmatch.Spec.Atom) :
      (∀ n, n ≠ [] → '/' ∉ n → (xfnmMatch loc x n = true ↔ NameMatches loc o as n)) →
      Rep loc o (.match x) (.pattern as)
  | recsearch (f h : Bool) : Rep loc o (.recsearch f h) (.descend f h)

/-- The components match one by one. -/
structure Reps (loc : Locale) (o : Options) (comps : List Comp) (parts : List Part) : Prop where
  length : comps.length = parts.length
  rep : ∀ (i : Nat) (c : Comp) (p : Part), comps[i]? = some c → parts[i]? = some p → Rep loc o c p

theorem Reps.part {loc : Locale} {o : Options} {comps : List Comp} {parts : List Part}
    (h : Reps loc o comps parts) {i : Nat} {c : Comp} (hc : comps[i]? = some c) :
    ∃ p, parts[i]? = some p ∧ Rep loc o c p ∧ parts.drop i = p :: parts.drop (i + 1) := by
  have hi : i < parts.length := by
    rw [← h.length]
    exact (List.getElem?_eq_some_iff.mp hc).1
  refine ⟨parts[i], List.getElem?_eq_getElem hi, ?_, ?_⟩
  · exact h.rep i c _ hc (List.getElem?_eq_getElem hi)
  · exact List.drop_eq_getElem_cons hi

theorem Reps.comp {loc : Locale} {o : Options} {comps : List Comp} {parts : List Part}
    (h : Reps loc o comps parts) {i : Nat} {p : Part} {ps : List Part} (hp : parts.drop i = p :: ps) :
    ∃ c, comps[i]? = some c ∧ Rep loc o c p ∧ ps = parts.drop (i + 1) := by
  have hi : i < parts.length := by
    have := congrArg List.length hp
    simp at this
    omega
  rw [List.drop_eq_getElem_cons hi] at hp
  simp only [List.cons.injEq] at hp
  have hi' : i < comps.length := by rw [h.length]; exact hi
  refine ⟨comps[i], List.getElem?_eq_getElem hi', ?_, hp.2.symm⟩
  rw [← hp.1]
  exact h.rep i _ _ (List.getElem?_eq_getElem hi') (List.getElem?_eq_getElem hi)

/-- The component is not a recursive search and matches the name. -/
def Takes (loc : Locale) (name : Path) (c : Comp) : Prop :=
  c = .literal name ∨ ∃ x, c = .match x ∧ name ≠ [] ∧ xfnmMatch loc x name = true

section
variable (loc : Locale) (fs : FS) (junk : Path → Stat) (comps : List Comp) (flags : GlobFlags)

/-- What is added to the results for a component that matches. -/
def shownResult (path : Path) (ex : Bool) (c : Comp) : List Path :=
  addResult fs path ex (match c with | .match _ => flags.mark | _ => false)

theorem step_takes {name path : Path} {ex last : Bool} {prev : List Frame} {c : Comp} {a cur : Nat}
    {st : Stat} (ha : a ≠ 0) (ht : Takes loc name c) :
    stepComponent loc fs flags name path ex last prev c a cur st =
      if last then ⟨shownResult fs flags path ex c, cur, 0, st⟩ else ⟨[], cur, 1, st⟩ := by
  rcases ht with rfl | ⟨x, rfl, hn, hm⟩
  · cases last <;> simp [stepComponent, ha, shownResult]
  · cases last <;> simp [stepComponent, ha, shownResult, hn, hm]

theorem step_not_takes {name path : Path} {ex last : Bool} {prev : List Frame} {c : Comp} {a cur : Nat}
    {st : Stat} (h : a = 0 ∨ ¬ Takes loc name c) :
    (stepComponent loc fs flags name path ex last prev c a cur st).results = [] ∧
    (stepComponent loc fs flags name path ex last prev c a cur st).next = 0 := by
  by_cases ha : a = 0
  · simp [stepComponent, ha]
  · have h := h.resolve_left ha
    unfold stepComponent
    rw [if_neg ha]
    cases c with
    | literal n =>
      have : n ≠ name := fun e => h (Or.inl (by rw [e]))
      simp [this]
    | «match» x =>
      simp only
      split
      · simp
      · rename_i hn
        have : xfnmMatch loc x name ≠ true := fun e => h (Or.inr ⟨x, rfl, hn, e⟩)
        simp [this]
    | recsearch f h' =>
      simp only
      split
      · simp
      · split
        · split <;> simp
        · simp

theorem entry_results {name path : Path} {ex : Bool} {prev : List Frame} {cs : List Comp}
    {as : List Nat} {cur : Nat} {st : Stat} {r : Path}
    (h : r ∈ (entryLoop loc fs flags name path ex prev cs as cur st).1) :
    ∃ (i : Nat) (c : Comp) (a : Nat), cs[i]? = some c ∧ as[i]? = some a ∧ a ≠ 0 ∧
      i + 1 = cs.length ∧ Takes loc name c ∧ r ∈ shownResult fs flags path ex c := by
  induction cs generalizing as cur st with
  | nil => simp [entryLoop] at h
  | cons c cs ih =>
    cases as with
    | nil => simp [entryLoop] at h
    | cons a as =>
      simp only [entryLoop, List.mem_append] at h
      rcases h with h | h
      · by_cases ht : a ≠ 0 ∧ Takes loc name c
        · rw [step_takes loc fs flags ht.1 ht.2] at h
          cases cs with
          | nil => exact ⟨0, c, a, rfl, rfl, ht.1, rfl, ht.2, by simpa using h⟩
          | cons _ _ => simp at h
        · rw [(step_not_takes loc fs flags (by
            by_cases ha : a = 0
            · exact Or.inl ha
            · exact Or.inr (fun e => ht ⟨ha, e⟩))).1] at h
          cases h
      · obtain ⟨i, c', a', h1, h2, h3, h4, h5⟩ := ih h
        exact ⟨i + 1, c', a', by simpa using h1, by simpa using h2, h3, by simp [h4], h5⟩

theorem entry_active {name path : Path} {ex : Bool} {prev : List Frame} {cs : List Comp}
    {as : List Nat} {cur : Nat} {st : Stat} {i v : Nat}
    (h : (entryLoop loc fs flags name path ex prev cs as cur st).2.1[i]? = some v) (hv : v ≠ 0) :
    (i = 0 ∧ cur ≠ 0) ∨
    (∃ (f hd : Bool) (a : Nat) (st st' : Stat), cs[i]? = some (.recsearch f hd) ∧ as[i]? = some a ∧
      a ≠ 0 ∧ name ≠ [] ∧ shouldRecurse fs name path f hd st prev (a - 1) = (true, st')) ∨
    (∃ (k : Nat) (c : Comp) (a : Nat), i = k + 1 ∧ cs[k]? = some c ∧ as[k]? = some a ∧ a ≠ 0 ∧
      i < cs.length ∧ Takes loc name c) := by
  induction cs generalizing as cur st i with
  | nil => simp [entryLoop] at h
  | cons c cs ih =>
    cases as with
    | nil => simp [entryLoop] at h
    | cons a as =>
      cases i with
      | zero =>
        simp only [entryLoop, List.getElem?_cons_zero, Option.some.injEq] at h
        by_cases hc : cur = 0
        · right; left
          subst hc
          by_cases ha : a = 0
          · subst ha; simp [stepComponent] at h; exact absurd h.symm hv
          · cases c with
            | literal n =>
              rcases step_active loc fs flags name path ex cs.isEmpty prev (.literal n) a 0 st with
                hs | ⟨_, _, ⟨f, hh, hs⟩, _⟩
              · rw [hs] at h; exact absurd h.symm hv
              · cases hs
            | «match» n =>
              rcases step_active loc fs flags name path ex cs.isEmpty prev (.match n) a 0 st with
                hs | ⟨_, _, ⟨f, hh, hs⟩, _⟩
              · rw [hs] at h; exact absurd h.symm hv
              · cases hs
            | recsearch f hd =>
              simp only [stepComponent, ha, if_false, if_true] at h
              split at h
              · exact absurd h.symm hv
              · rename_i hn
                split at h
                · rename_i hs
                  exact ⟨f, hd, a, st, _, rfl, rfl, ha, hn, Prod.ext hs rfl⟩
                · exact absurd h.symm hv
        · exact Or.inl ⟨rfl, hc⟩
      | succ i =>
        simp only [entryLoop, List.getElem?_cons_succ] at h
        rcases ih h with ⟨rfl, hc⟩ | ⟨f, hd, a', st1, st2, h1, h2, h3⟩ | ⟨k, c', a', rfl, h1, h2, h3, h4, h5⟩
        · right; right
          by_cases ht : a ≠ 0 ∧ Takes loc name c
          · refine ⟨0, c, a, rfl, rfl, rfl, ht.1, ?_, ht.2⟩
            rw [step_takes loc fs flags ht.1 ht.2] at hc
            cases cs with
            | nil => simp at hc
            | cons _ _ => simp
          · exact absurd (step_not_takes loc fs flags (by
              by_cases ha : a = 0
              · exact Or.inl ha
              · exact Or.inr (fun e => ht ⟨ha, e⟩))).2 hc
        · exact Or.inr (Or.inl ⟨f, hd, a', st1, st2, by simpa using h1, by simpa using h2, h3⟩)
        · exact Or.inr (Or.inr ⟨k + 1, c', a', rfl, by simpa using h1, by simpa using h2, h3,
            by simpa using h4, h5⟩)

theorem activate_active {cs : List Comp} {as : List Nat} (hl : as.length = cs.length) {i v : Nat}
    (h : (activate cs as)[i]? = some v) (hv : v ≠ 0) :
    ∃ (k : Nat) (a : Nat), k ≤ i ∧ as[k]? = some a ∧ a ≠ 0 ∧
      ∀ j, k ≤ j → j < i → ∃ f hd, cs[j]? = some (.recsearch f hd) := by
  induction cs generalizing as i with
  | nil =>
    simp only [activate] at h
    exact ⟨i, v, Nat.le_refl _, h, hv, fun j h1 h2 => by omega⟩
  | cons c cs ih =>
    cases as with
    | nil => simp [activate] at h
    | cons a as =>
      have base : ∀ {L : List Nat}, (a :: L)[i]? = some v → i = 0 →
          ∃ (k : Nat) (a' : Nat), k ≤ i ∧ (a :: as)[k]? = some a' ∧ a' ≠ 0 ∧
            ∀ j, k ≤ j → j < i → ∃ f hd, (c :: cs)[j]? = some (.recsearch f hd) := by
        rintro L h rfl
        simp only [List.getElem?_cons_zero, Option.some.injEq] at h
        subst h
        exact ⟨0, a, Nat.le_refl _, rfl, hv, fun j h1 h2 => by omega⟩
      have plain : (a :: activate cs as)[i]? = some v →
          ∃ (k : Nat) (a' : Nat), k ≤ i ∧ (a :: as)[k]? = some a' ∧ a' ≠ 0 ∧
            ∀ j, k ≤ j → j < i → ∃ f hd, (c :: cs)[j]? = some (.recsearch f hd) := by
        intro h
        cases i with
        | zero => exact base h rfl
        | succ i =>
          obtain ⟨k, a', h1, h2, h3, h4⟩ := ih (by simpa using hl) (by simpa using h)
          refine ⟨k + 1, a', by omega, by simpa using h2, h3, ?_⟩
          intro j hj1 hj2
          match j, hj1 with
          | j + 1, hj1 => simpa using h4 j (by omega) (by omega)
      cases as with
      | nil =>
        cases c <;> exact plain h
      | cons b as =>
        cases c with
        | literal _ => exact plain h
        | «match» _ => exact plain h
        | recsearch f hd =>
          by_cases ha : a = 0
          · simp only [activate, ha, ne_eq, not_true_eq_false, if_false] at h
            exact plain (by simpa [ha] using h)
          · cases i with
            | zero => exact base h rfl
            | succ i =>
              simp only [activate, ne_eq, ha, not_false_eq_true, if_true, List.getElem?_cons_succ] at h
              obtain ⟨k, a', h1, h2, h3, h4⟩ := ih (by simpa using hl) h
              cases k with
              | zero =>
                refine ⟨0, a, by omega, rfl, ha, ?_⟩
                intro j hj1 hj2
                cases j with
                | zero => exact ⟨f, hd, rfl⟩
                | succ j => simpa using h4 j (by omega) (by omega)
              | succ k =>
                refine ⟨k + 2, a', by omega, by simpa using h2, h3, ?_⟩
                intro j hj1 hj2
                match j, hj1 with
                | j + 1, hj1 => simpa using h4 j (by omega) (by omega)


theorem addResult_mem {path r : Path} {ex mark : Bool} (h : r ∈ addResult fs path ex mark) :
    (ex = true → Exists fs path) ∧
    ((r = path ++ ['/'] ∧ mark = true ∧ IsDir fs path) ∨ (r = path ∧ ¬ (mark = true ∧ IsDir fs path))) := by
  unfold addResult at h
  split at h
  · rename_i hc
    simp only [Bool.and_eq_true, Bool.not_eq_true'] at hc
    simp only [List.mem_singleton] at h
    subst h
    exact ⟨by simp [hc.1], Or.inr ⟨rfl, by simp [hc.2]⟩⟩
  · rename_i hc
    cases hst : fs.stat path with
    | none =>
      rw [hst] at h
      simp only at h
      split at h
      · cases h
      · rename_i he
        simp only [List.mem_singleton] at h
        subst h
        refine ⟨fun e => absurd e he, Or.inr ⟨rfl, ?_⟩⟩
        rintro ⟨-, st, h1, -⟩
        rw [hst] at h1
        cases h1
    | some st =>
      rw [hst] at h
      refine ⟨fun _ => ⟨st, hst⟩, ?_⟩
      simp only at h
      split at h
      · rename_i hd
        simp only [List.mem_singleton] at h
        subst h
        refine Or.inr ⟨rfl, ?_⟩
        rintro ⟨hm, st', h1, h2⟩
        rw [hst] at h1
        cases h1
        simp [hm, h2] at hd
      · rename_i hd
        simp only [List.mem_singleton] at h
        subst h
        simp only [Bool.or_eq_true, Bool.not_eq_true', not_or, Bool.not_eq_false] at hd
        exact Or.inl ⟨rfl, hd.1, st, hst, hd.2⟩

theorem mem_addResult {path : Path} {ex mark : Bool} (he : ex = true → Exists fs path) :
    addResult fs path ex mark = [if mark = true ∧ (fs.stat path).any (·.dir) = true then path ++ ['/'] else path] := by
  unfold addResult
  cases hst : fs.stat path with
  | none =>
    have : ex = false := by
      cases ex with
      | false => rfl
      | true =>
        obtain ⟨st, h⟩ := he rfl
        rw [hst] at h
        cases h
    subst this
    cases mark <;> simp
  | some st =>
    cases ex <;> cases mark <;> cases hd : st.dir <;> simp [hd]

theorem recurse_true {name path : Path} {f hd : Bool} {st st' : Stat} {prev : List Frame} {k : Nat}
    (h : shouldRecurse fs name path f hd st prev k = (true, st')) :
    (hd = false → ∀ n', name ≠ '.' :: n') ∧ name ≠ ['.'] ∧ name ≠ ['.', '.'] ∧
      (if f then fs.stat path else fs.lstat path) = some st' ∧ st'.dir = true := by
  unfold shouldRecurse at h
  split at h
  · cases h
  · rename_i hn
    generalize hst : (if f = true then fs.stat path else fs.lstat path) = s at h ⊢
    cases s with
    | none => simp at h
    | some s =>
      simp only at h
      split at h
      · simp at h
      · rename_i hdir
        split at h
        · simp at h
        · simp only [Prod.mk.injEq, true_and] at h
          subst h
          refine ⟨?_, ?_, ?_, rfl, by simpa using hdir⟩
          · rintro rfl n' rfl
            simp [hiddenName] at hn
          · rintro rfl
            cases hd <;> simp [hiddenName] at hn
          · rintro rfl
            cases hd <;> simp [hiddenName] at hn

theorem finds_exists {fs : FS} {o : Options} {loc : Locale} (hs : Sane fs) {ps : List Part} {p r : Path}
    (h : Finds loc fs o (Weak fs) (Weak fs) ps p r) : p ≠ [] → ∃ q, Exists fs (p ++ q) := by
  have weak : ∀ {p n : Path}, p ≠ [] → Weak fs p n → ∃ q, Exists fs (p ++ q) := by
    rintro p n hp (⟨ns, h, -⟩ | h)
    · refine ⟨[], ?_⟩
      rw [List.append_nil]
      have := hs.read _ _ h
      simpa [dirOf, hp] using this
    · exact ⟨n, h⟩
  induction h with
  | lastName n p hw => exact fun hp => weak hp hw
  | name n p r part parts _ ih =>
    intro _
    obtain ⟨q, hq⟩ := ih (by simp)
    exact ⟨n ++ ['/'] ++ q, by simpa using hq⟩
  | lastPattern as n p r hw _ _ => exact fun hp => weak hp hw
  | pattern as n p r part parts hw _ _ _ => exact fun hp => weak hp hw
  | here f h p r parts _ ih => exact ih
  | deeper f h n p r st parts hw _ _ _ => exact fun hp => weak hp hw

theorem search_sound {o : Options} {parts : List Part} (hs : Sane fs)
    (hr : Reps loc o comps parts) (hm : o.markdirs = flags.mark)
    (hlit : ∀ n, Comp.literal n ∈ comps → '/' ∉ n) (fuel : Nat) (path : Path) (prev : List Frame) (t : Frame) (hl : t.active.length = comps.length) (res : List Path)
    (h : search loc fs junk comps flags fuel path prev t = some res) (r : Path) (hmem : r ∈ res) :
    ∃ (i a : Nat), t.active[i]? = some a ∧ a ≠ 0 ∧
      Finds loc fs o (Weak fs) (Weak fs) (parts.drop i) path r := by
  induction fuel generalizing path prev t res r with
  | zero => simp [search] at h
  | succ fuel ih =>
    rw [search] at h
    -- it is enough to consider the components that are active in the search
    suffices hsuff : ∃ (i a : Nat), (activate comps t.active)[i]? = some a ∧ a ≠ 0 ∧
        Finds loc fs o (Weak fs) (Weak fs) (parts.drop i) path r by
      obtain ⟨i, a, h1, h2, h3⟩ := hsuff
      obtain ⟨k, a', hk, h4, h5, h6⟩ := activate_active hl h1 h2
      refine ⟨k, a', h4, h5, ?_⟩
      clear h1 h4 h5 h
      induction hn : i - k generalizing k with
      | zero =>
        have : k = i := by omega
        subst this
        exact h3
      | succ m ihm =>
        obtain ⟨f, hd, hc⟩ := h6 k (Nat.le_refl _) (by omega)
        obtain ⟨p, -, hrep, hdrop⟩ := hr.part hc
        cases hrep
        rw [hdrop]
        exact .here _ _ _ _ _ (ihm (k + 1) (by omega) (fun j h1 h2 => h6 j (by omega) h2) (by omega))
    have hl' : (activate comps t.active).length = comps.length := by rw [activate_length, hl]
    generalize activate comps t.active = act at h hl' ⊢
    generalize (⟨act, t.st⟩ : Frame) :: prev = prev' at h
    -- a name that is tried
    have entry : ∀ (ex : Bool) (name : Path) (y : List Path),
        scandirEntry loc fs junk comps flags (search loc fs junk comps flags fuel) path prev' act
          ex name = some y → (ex = false → Listed fs path name) → '/' ∉ name → r ∈ y →
        ∃ (i a : Nat), act[i]? = some a ∧ a ≠ 0 ∧
          Finds loc fs o (Weak fs) (Weak fs) (parts.drop i) path r := by
      intro ex name y hy hlist hsl hry
      unfold scandirEntry at hy
      generalize hloop : entryLoop loc fs flags name (path ++ name) ex prev' comps act 0
        (junk (path ++ name)) = L at hy
      simp only at hy
      cases hse : search loc fs junk comps flags fuel (path ++ name ++ ['/']) prev' ⟨L.2.1, L.2.2⟩ with
      | none => rw [hse] at hy; cases hy
      | some deeper =>
        rw [hse] at hy
        simp only [Option.some.injEq] at hy
        subst hy
        rcases List.mem_append.mp hry with hr1 | hr1
        · rw [← hloop] at hr1
          obtain ⟨i, c, a, h1, h2, h3, h4, h5, h6⟩ := entry_results loc fs flags hr1
          refine ⟨i, a, h2, h3, ?_⟩
          obtain ⟨p, -, hrep, hdrop⟩ := hr.part h1
          rw [hdrop, List.drop_eq_nil_of_le (by rw [← hr.length]; omega)]
          have hw : (ex = true → Exists fs (path ++ name)) → Weak fs path name := by
            intro h
            cases ex with
            | true => exact Or.inr (h rfl)
            | false => exact Or.inl (hlist rfl)
          cases hrep with
          | literal n =>
            rcases h5 with h5 | ⟨x, h5, -⟩
            · cases h5
              obtain ⟨g1, g2⟩ := addResult_mem fs h6
              rcases g2 with ⟨-, g2, -⟩ | ⟨rfl, -⟩
              · cases g2
              · exact .lastName _ _ (hw g1)
            · cases h5
          | «match» x as hx =>
            rcases h5 with h5 | ⟨x, h5, hne, hmt⟩
            · cases h5
            · cases h5
              obtain ⟨g1, g2⟩ := addResult_mem fs h6
              refine .lastPattern as name path r (hw g1) ((hx name hne hsl).mp hmt) ?_
              rcases g2 with ⟨rfl, g2, g3⟩ | ⟨rfl, g2⟩
              · exact .marked (by rw [hm]; exact g2) g3
              · exact .plain (by rw [hm]; exact g2)
          | recsearch f hd =>
            rcases h5 with h5 | ⟨x, h5, -⟩ <;> cases h5
        · obtain ⟨i, v, h1, h2, h3⟩ := ih _ _ _
            (by rw [← hloop, entryLoop_length _ _ _ _ _ _ _ _ _ _ _ hl', hl']) _ hse r hr1
          simp only at h1
          rw [← hloop] at h1
          rcases entry_active loc fs flags h1 h2 with ⟨-, hc⟩ | ⟨f, hd, a, st1, st2, g1, g2, g3, g4, g5⟩ |
            ⟨k, c, a, rfl, g1, g2, g3, g4, g5⟩
          · exact absurd rfl hc
          · refine ⟨i, a, g2, g3, ?_⟩
            obtain ⟨p, -, hrep, hdrop⟩ := hr.part g1
            cases hrep
            obtain ⟨e1, e2, e3, e4, e5⟩ := recurse_true fs g5
            rw [hdrop] at h3 ⊢
            refine .deeper f hd name path r st2 _ ?_ ⟨g4, hsl, e1, e2, e3, e4, e5⟩ h3
            right
            cases f with
            | true => exact ⟨st2, by simpa using e4⟩
            | false => exact ⟨st2, hs.notLink _ _ (by simpa using e4) e5⟩
          · refine ⟨k, a, g2, g3, ?_⟩
            obtain ⟨p, -, hrep, hdrop⟩ := hr.part g1
            obtain ⟨c', hc'⟩ : ∃ c', comps[k + 1]? = some c' :=
              ⟨comps[k + 1], List.getElem?_eq_getElem g4⟩
            obtain ⟨p', -, -, hdrop'⟩ := hr.part hc'
            rw [hdrop']  at hdrop h3
            rw [hdrop]
            cases hrep with
            | literal n =>
              rcases g5 with g5 | ⟨x, g5, -⟩
              · cases g5
                exact .name _ _ _ _ _ h3
              · cases g5
            | «match» x as hx =>
              rcases g5 with g5 | ⟨x, g5, hne, hmt⟩
              · cases g5
              · cases g5
                refine .pattern as name path r _ _ (Or.inr ?_) ((hx name hne hsl).mp hmt) h3
                obtain ⟨q, hq⟩ := finds_exists hs h3 (by simp)
                exact hs.parent (path ++ name) q (by simp [hne]) (by simpa using hq)
            | recsearch f hd =>
              rcases g5 with g5 | ⟨x, g5, -⟩ <;> cases g5
    unfold searchDir at h
    split at h
    · rename_i names hn
      have hread : fs.readdir (dirOf path) = some names := by
        split at hn
        · exact hn
        · cases hn
      obtain ⟨-, hc⟩ := collect_some h
      obtain ⟨y, hy, hry⟩ := (hc r).mp hmem
      rcases List.mem_cons.mp hy with hy | hy
      · exact entry _ _ _ hy.symm (by simp) (by simp) hry
      · obtain ⟨n, hn', hy⟩ := List.mem_map.mp hy
        exact entry _ _ _ hy (fun _ => ⟨names, hread, hn'⟩) ((hs.names _ _ hread).2 n hn').2 hry
    · split at h
      · obtain ⟨-, hc⟩ := collect_some h
        obtain ⟨y, hy, hry⟩ := (hc r).mp hmem
        obtain ⟨⟨i, n⟩, hin, hy⟩ := List.mem_map.mp hy
        obtain ⟨j, rfl, h1, a, h2, h3⟩ := mem_activeLiterals.mp hin
        rw [Nat.zero_add] at hy
        refine ⟨j, a, h2, h3, ?_⟩
        obtain ⟨p, -, hrep, hdrop⟩ := hr.part h1
        cases hrep
        unfold literalEach at hy
        split at hy
        · rename_i hlt
          simp only at hlt
          obtain ⟨k, v, g1, g2, g3⟩ := ih _ _ _ (by simp [onlyActive]) _ hy r hry
          simp only [onlyActive, List.getElem?_set, List.length_replicate] at g1
          split at g1
          · rename_i e
            subst e
            obtain ⟨c', hc'⟩ : ∃ c', comps[j + 1]? = some c' :=
              ⟨comps[j + 1], List.getElem?_eq_getElem hlt⟩
            obtain ⟨p', -, -, hdrop'⟩ := hr.part hc'
            rw [hdrop'] at g3 hdrop
            rw [hdrop]
            exact .name _ _ _ _ _ g3
          · obtain ⟨hk, hk'⟩ := List.getElem?_eq_some_iff.mp g1
            rw [List.getElem_replicate] at hk'
            exact absurd hk'.symm g2
        · rename_i hlt
          simp only at hlt
          simp only [Option.some.injEq] at hy
          subst hy
          rw [hdrop, List.drop_eq_nil_of_le (by rw [← hr.length]; omega)]
          obtain ⟨g1, g2⟩ := addResult_mem fs hry
          rcases g2 with ⟨-, g2, -⟩ | ⟨rfl, -⟩
          · cases g2
          · exact .lastName _ _ (Or.inr (g1 rfl))
      · obtain ⟨-, hc⟩ := collect_some h
        obtain ⟨y, hy, hry⟩ := (hc r).mp hmem
        obtain ⟨n, hn, hy⟩ := List.mem_map.mp hy
        rw [mem_uniqueNames] at hn
        obtain ⟨⟨i, n'⟩, hin, rfl⟩ := List.mem_map.mp hn
        obtain ⟨j, -, h1, -⟩ := mem_activeLiterals.mp hin
        exact entry _ _ _ hy (by simp) (hlit _ (List.mem_of_getElem? h1)) hry

end

end Yash.Glob
