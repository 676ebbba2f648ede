import Verif.Glob.Sound
/-!
# What matches the pattern is found
-/
set_option autoImplicit false

namespace Yash.Glob

open Fnmatch (Compiled Locale xfnmMatch)
open Spec (Part Options NameMatches FindsOnce Listed Exists IsDir Enters Shown dirOf Sane)

/-- An active recursive search component has the same value as the next component. -/
def Chain (cs : List Comp) (as : List Nat) : Prop :=
  ∀ (i : Nat) (f h : Bool) (a b : Nat), cs[i]? = some (.recsearch f h) → as[i]? = some a → a ≠ 0 →
    as[i + 1]? = some b → b = a

theorem activate_head (cs : List Comp) (as : List Nat) : (activate cs as)[0]? = as[0]? := by
  cases cs with
  | nil => rfl
  | cons c cs =>
    cases as with
    | nil => rfl
    | cons a as =>
      cases as with
      | nil => cases c <;> rfl
      | cons b as => cases c <;> rfl

theorem chain_activate (cs : List Comp) (as : List Nat) : Chain cs (activate cs as) := by
  induction cs generalizing as with
  | nil => intro i f h a b hc; simp at hc
  | cons c cs ih =>
    intro i f h a b hc ha ha0 hb
    cases as with
    | nil => simp [activate] at ha
    | cons x as =>
      have step : ∀ as', (activate (c :: cs) (x :: as)) = x :: activate cs as' → i ≠ 0 → b = a := by
        intro as' he hi
        rw [he] at ha hb
        match i, hi with
        | i + 1, _ =>
          exact ih as' i f h a b (by simpa using hc) (by simpa using ha) ha0 (by simpa using hb)
      cases as with
      | nil =>
        have hl : (activate (c :: cs) [x]).length = 1 := by rw [activate_length]; rfl
        have := (List.getElem?_eq_some_iff.mp hb).1
        omega
      | cons y as =>
        by_cases hi : i = 0
        · subst hi
          simp only [List.getElem?_cons_zero, Option.some.injEq] at hc
          subst hc
          simp only [activate, List.getElem?_cons_zero, Option.some.injEq, List.getElem?_cons_succ,
            Nat.zero_add] at ha hb
          subst ha
          rw [activate_head] at hb
          simp only [List.getElem?_cons_zero, Option.some.injEq, ne_eq, ha0, not_false_eq_true,
            if_true] at hb
          exact hb.symm
        · cases c with
          | literal _ => exact step _ rfl hi
          | «match» _ => exact step _ rfl hi
          | recsearch _ _ => exact step _ rfl hi

theorem activate_next {cs : List Comp} {L : List Nat} {i : Nat} {c : Comp} (hc : cs[i]? = some c)
    (hn : ∀ f h, c ≠ .recsearch f h) : (activate cs L)[i + 1]? = L[i + 1]? := by
  induction cs generalizing L i with
  | nil => simp at hc
  | cons c' cs ih =>
    cases L with
    | nil => simp [activate]
    | cons x L =>
      cases i with
      | zero =>
        simp only [List.getElem?_cons_zero, Option.some.injEq] at hc
        subst hc
        cases c' with
        | literal n =>
          have e : activate (.literal n :: cs) (x :: L) = x :: activate cs L := by
            cases L <;> rfl
          rw [e]
          simpa using activate_head cs L
        | «match» n =>
          have e : activate (.match n :: cs) (x :: L) = x :: activate cs L := by
            cases L <;> rfl
          rw [e]
          simpa using activate_head cs L
        | recsearch f h => exact absurd rfl (hn f h)
      | succ i =>
        simp only [List.getElem?_cons_succ] at hc
        cases L with
        | nil =>
          have hl : (activate (c' :: cs) [x]).length = 1 := by rw [activate_length]; rfl
          rw [List.getElem?_eq_none (by omega), List.getElem?_eq_none (by simp)]
        | cons y L =>
          cases c' with
          | literal _ => simp only [activate, List.getElem?_cons_succ]; rw [ih hc]; simp
          | «match» _ => simp only [activate, List.getElem?_cons_succ]; rw [ih hc]; simp
          | recsearch _ _ => simp only [activate, List.getElem?_cons_succ]; rw [ih hc]; simp

theorem activate_nonzero {cs : List Comp} {L : List Nat} {i v : Nat} (h : L[i]? = some v) (hv : v ≠ 0) :
    ∃ v', (activate cs L)[i]? = some v' ∧ v' ≠ 0 := by
  induction cs generalizing L i v with
  | nil => exact ⟨v, by simpa [activate] using h, hv⟩
  | cons c cs ih =>
    cases L with
    | nil => simp at h
    | cons x L =>
      cases i with
      | zero => exact ⟨v, by rw [activate_head]; exact h, hv⟩
      | succ i =>
        simp only [List.getElem?_cons_succ] at h
        cases L with
        | nil => simp at h
        | cons y L =>
          cases c with
          | literal _ => simpa only [activate, List.getElem?_cons_succ] using ih h hv
          | «match» _ => simpa only [activate, List.getElem?_cons_succ] using ih h hv
          | recsearch _ _ =>
            simp only [activate, List.getElem?_cons_succ]
            cases i with
            | zero =>
              simp only [List.getElem?_cons_zero, Option.some.injEq] at h
              subst h
              refine ⟨_, activate_head _ _, ?_⟩
              split
              · assumption
              · exact hv
            | succ i => exact ih (by simpa using h) hv

theorem activate_mem {cs : List Comp} {L : List Nat} {v : Nat} (h : v ∈ activate cs L) : v ∈ L := by
  induction cs generalizing L with
  | nil => simpa [activate] using h
  | cons c cs ih =>
    cases L with
    | nil => simp [activate] at h
    | cons x L =>
      have key : ∀ L', v ∈ x :: activate cs L' → v = x ∨ v ∈ L' := by
        intro L' h
        rcases List.mem_cons.mp h with h | h
        · exact Or.inl h
        · exact Or.inr (ih h)
      cases L with
      | nil =>
        have h : v ∈ x :: activate cs [] := by cases c <;> exact h
        rcases key _ h with h | h
        · simp [h]
        · cases h
      | cons y L =>
        cases c with
        | literal _ =>
          rcases key _ h with h | h
          · simp [h]
          · exact List.mem_cons_of_mem _ h
        | «match» _ =>
          rcases key _ h with h | h
          · simp [h]
          · exact List.mem_cons_of_mem _ h
        | recsearch _ _ =>
          rcases key _ h with h | h
          · simp [h]
          · rcases List.mem_cons.mp h with h | h
            · split at h <;> simp [h]
            · simp [h]

/-- A value for the next directory: a new search, or the search that goes on. -/
def Follows (a v : Nat) : Prop := v ≤ 1 ∨ (a ≠ 0 ∧ v = a + 1)

theorem activate_values {cs : List Comp} {as L : List Nat} (hc : Chain cs as)
    (hl : L.length = as.length)
    (h : ∀ (i a v : Nat), as[i]? = some a → L[i]? = some v → Follows a v) :
    ∀ (i a v : Nat), as[i]? = some a → (activate cs L)[i]? = some v → Follows a v := by
  induction cs generalizing as L with
  | nil => simpa [activate] using h
  | cons c cs ih =>
    intro i a v ha hv
    cases L with
    | nil => simp [activate] at hv
    | cons x L =>
      cases as with
      | nil => simp at ha
      | cons y as =>
        cases i with
        | zero =>
          rw [activate_head] at hv
          exact h 0 a v ha hv
        | succ i =>
          have hc' : Chain cs as := by
            intro j f hd a b h1 h2 h3 h4
            exact hc (j + 1) f hd a b (by simpa using h1) (by simpa using h2) h3 (by simpa using h4)
          have hl' : L.length = as.length := by simpa using hl
          have h' : ∀ (i a v : Nat), as[i]? = some a → L[i]? = some v → Follows a v :=
            fun i a v h1 h2 => h (i + 1) a v (by simpa using h1) (by simpa using h2)
          simp only [List.getElem?_cons_succ] at ha
          cases L with
          | nil =>
            have : as = [] := List.length_eq_zero_iff.mp (by simpa using hl'.symm)
            subst this
            simp at ha
          | cons x' L =>
            cases c with
            | literal _ =>
              exact ih hc' hl' h' i a v ha (by simpa only [activate, List.getElem?_cons_succ] using hv)
            | «match» _ =>
              exact ih hc' hl' h' i a v ha (by simpa only [activate, List.getElem?_cons_succ] using hv)
            | recsearch f hd =>
              simp only [activate, List.getElem?_cons_succ] at hv
              refine ih hc' (by simpa using hl') ?_ i a v ha hv
              intro j b w hb hw
              cases j with
              | zero =>
                simp only [List.getElem?_cons_zero, Option.some.injEq] at hw
                subst hw
                split
                · rename_i hx
                  have h0 := h 0 y x rfl rfl
                  rcases h0 with h0 | ⟨h0, h1⟩
                  · exact Or.inl h0
                  · have : b = y := hc 0 f hd y b rfl rfl h0 (by simpa using hb)
                    subst this
                    exact Or.inr ⟨h0, h1⟩
                · exact h' 0 b x' hb rfl
              | succ j => exact h' (j + 1) b w hb (by simpa using hw)

section
variable (loc : Locale) (fs : FS) (junk : Path → Stat) (comps : List Comp) (flags : GlobFlags)

/-- The status of the file. -/
def StatOf (p : Path) (st : Stat) : Prop := fs.stat p = some st ∨ fs.lstat p = some st

theorem entry_values {name path : Path} {ex : Bool} {prev : List Frame} {cs : List Comp}
    {as : List Nat} {cur : Nat} {st : Stat} (hcur : cur ≤ 1) (hb : ∀ a ∈ as, a < 256) :
    ∀ (i a v : Nat), as[i]? = some a →
      (entryLoop loc fs flags name path ex prev cs as cur st).2.1[i]? = some v → Follows a v := by
  induction cs generalizing as cur st with
  | nil => intro i a v _ h; simp [entryLoop] at h
  | cons c cs ih =>
    intro i a v ha h
    cases as with
    | nil => simp at ha
    | cons x as =>
      cases i with
      | zero =>
        simp only [List.getElem?_cons_zero, Option.some.injEq] at ha
        subst ha
        simp only [entryLoop, List.getElem?_cons_zero, Option.some.injEq] at h
        subst h
        have hx := hb x (by simp)
        rcases step_active loc fs flags name path ex cs.isEmpty prev c x cur st with h | ⟨h1, _, _, h⟩
        · rw [h]; exact Or.inl hcur
        · rw [h]
          by_cases hx' : x + 1 = 256
          · left; rw [hx']; decide
          · right; exact ⟨h1, Nat.mod_eq_of_lt (by omega)⟩
      | succ i =>
        simp only [entryLoop, List.getElem?_cons_succ] at h ha
        exact ih (step_next loc fs flags name path ex cs.isEmpty prev c x cur st)
          (fun a ha => hb a (by simp [ha])) i a v ha h

theorem recurse_st {name path : Path} {f hd : Bool} {st : Stat} {prev : List Frame} {k : Nat} :
    (shouldRecurse fs name path f hd st prev k).2 = st ∨
      StatOf fs path (shouldRecurse fs name path f hd st prev k).2 := by
  unfold shouldRecurse
  split
  · exact Or.inl rfl
  · cases f with
    | true =>
      simp only [if_true]
      cases h : fs.stat path with
      | none => exact Or.inl rfl
      | some s =>
        right
        simp only
        split
        · exact Or.inl h
        · split <;> exact Or.inl h
    | false =>
      simp only [Bool.false_eq_true, if_false]
      cases h : fs.lstat path with
      | none => exact Or.inl rfl
      | some s =>
        right
        simp only
        split
        · exact Or.inr h
        · split <;> exact Or.inr h

theorem recurse_st_true {name path : Path} {f hd : Bool} {st : Stat} {prev : List Frame} {k : Nat}
    (h : (shouldRecurse fs name path f hd st prev k).1 = true) :
    StatOf fs path (shouldRecurse fs name path f hd st prev k).2 := by
  obtain ⟨-, -, -, h, -⟩ := recurse_true fs (name := name) (path := path) (f := f) (hd := hd)
    (st := st) (prev := prev) (k := k) (Prod.ext h rfl)
  cases f with
  | true => exact Or.inl (by simpa using h)
  | false => exact Or.inr (by simpa using h)

theorem step_st {name path : Path} {ex last : Bool} {prev : List Frame} {c : Comp} {a cur : Nat}
    {st : Stat} :
    ((stepComponent loc fs flags name path ex last prev c a cur st).st = st ∨
      StatOf fs path (stepComponent loc fs flags name path ex last prev c a cur st).st) ∧
    (cur ≤ 1 → 2 ≤ (stepComponent loc fs flags name path ex last prev c a cur st).value →
      StatOf fs path (stepComponent loc fs flags name path ex last prev c a cur st).st) := by
  unfold stepComponent
  split
  · exact ⟨Or.inl rfl, fun h1 h2 => by simp only at h2; omega⟩
  · cases c with
    | literal n =>
      simp only
      (repeat' split) <;> exact ⟨Or.inl rfl, fun h1 h2 => by simp only at h2; omega⟩
    | «match» x =>
      simp only
      (repeat' split) <;> exact ⟨Or.inl rfl, fun h1 h2 => by simp only at h2; omega⟩
    | recsearch f hd =>
      simp only
      split
      · exact ⟨Or.inl rfl, fun h1 h2 => by simp only at h2; omega⟩
      · split
        · split
          · rename_i h
            exact ⟨Or.inr (recurse_st_true fs h), fun _ _ => recurse_st_true fs h⟩
          · exact ⟨recurse_st fs, fun _ h => by simp at h⟩
        · exact ⟨Or.inl rfl, fun h1 h2 => by simp only at h2; omega⟩

theorem entry_st {name path : Path} {ex : Bool} {prev : List Frame} {cs : List Comp}
    {as : List Nat} {cur : Nat} {st : Stat} (hcur : cur ≤ 1) :
    (StatOf fs path st → StatOf fs path (entryLoop loc fs flags name path ex prev cs as cur st).2.2) ∧
    ∀ v ∈ (entryLoop loc fs flags name path ex prev cs as cur st).2.1, 2 ≤ v →
      StatOf fs path (entryLoop loc fs flags name path ex prev cs as cur st).2.2 := by
  induction cs generalizing as cur st with
  | nil => exact ⟨fun h => by simpa [entryLoop] using h, fun v hv => by simp [entryLoop] at hv⟩
  | cons c cs ih =>
    cases as with
    | nil => exact ⟨fun h => by simpa [entryLoop] using h, fun v hv => by simp [entryLoop] at hv⟩
    | cons x as =>
      have hs := step_st loc fs flags (name := name) (path := path) (ex := ex) (last := cs.isEmpty)
        (prev := prev) (c := c) (a := x) (cur := cur) (st := st)
      have hi := ih (as := as)
        (cur := (stepComponent loc fs flags name path ex cs.isEmpty prev c x cur st).next)
        (st := (stepComponent loc fs flags name path ex cs.isEmpty prev c x cur st).st)
        (step_next loc fs flags name path ex cs.isEmpty prev c x cur st)
      simp only [entryLoop]
      refine ⟨fun h => hi.1 ?_, ?_⟩
      · rcases hs.1 with e | e
        · rw [e]; exact h
        · exact e
      · intro v hv h2
        rcases List.mem_cons.mp hv with rfl | hv
        · exact hi.1 (hs.2 hcur h2)
        · exact hi.2 v hv h2

theorem step_value_one {name path : Path} {ex last : Bool} {prev : List Frame} {c : Comp} {a : Nat}
    {st : Stat} : (stepComponent loc fs flags name path ex last prev c a 1 st).value = 1 := by
  rcases step_active loc fs flags name path ex last prev c a 1 st with h | ⟨_, h, _⟩
  · exact h
  · cases h

theorem entry_at {name path : Path} {ex : Bool} {prev : List Frame} {cs : List Comp}
    {as : List Nat} {cur : Nat} {st : Stat} (hcur : cur ≤ 1) (hl : as.length = cs.length)
    {i a : Nat} {c : Comp} (hc : cs[i]? = some c) (ha : as[i]? = some a) :
    ∃ (cur' : Nat) (st' : Stat), cur' ≤ 1 ∧
      (∀ r ∈ (stepComponent loc fs flags name path ex (cs.drop (i + 1)).isEmpty prev c a cur' st').results,
        r ∈ (entryLoop loc fs flags name path ex prev cs as cur st).1) ∧
      (entryLoop loc fs flags name path ex prev cs as cur st).2.1[i]? =
        some (stepComponent loc fs flags name path ex (cs.drop (i + 1)).isEmpty prev c a cur' st').value ∧
      (i + 1 < cs.length →
        (stepComponent loc fs flags name path ex (cs.drop (i + 1)).isEmpty prev c a cur' st').next = 1 →
        (entryLoop loc fs flags name path ex prev cs as cur st).2.1[i + 1]? = some 1) := by
  induction cs generalizing as cur st i with
  | nil => simp at hc
  | cons c' cs ih =>
    cases as with
    | nil => simp at ha
    | cons x as =>
      cases i with
      | zero =>
        simp only [List.getElem?_cons_zero, Option.some.injEq] at hc ha
        subst hc ha
        refine ⟨cur, st, hcur, ?_, ?_, ?_⟩
        · intro r hr
          simp only [entryLoop, List.mem_append]
          exact Or.inl hr
        · simp only [entryLoop, List.getElem?_cons_zero]
          rfl
        · intro h1 h2
          simp only [entryLoop, List.getElem?_cons_succ, Nat.zero_add]
          cases cs with
          | nil => simp at h1
          | cons c'' cs =>
            cases as with
            | nil => simp at hl
            | cons x' as =>
              simp only [Nat.zero_add, List.drop_succ_cons, List.drop_zero] at h2
              simp only [entryLoop, List.getElem?_cons_zero, h2, step_value_one]
      | succ i =>
        simp only [List.getElem?_cons_succ] at hc ha
        obtain ⟨cur', st', h1, h2, h3, h4⟩ := ih
          (cur := (stepComponent loc fs flags name path ex cs.isEmpty prev c' x cur st).next)
          (st := (stepComponent loc fs flags name path ex cs.isEmpty prev c' x cur st).st)
          (step_next loc fs flags name path ex cs.isEmpty prev c' x cur st) (by simpa using hl) hc ha
        refine ⟨cur', st', h1, ?_, ?_, ?_⟩
        · intro r hr
          simp only [entryLoop, List.mem_append]
          exact Or.inr (h2 r hr)
        · simpa only [entryLoop, List.getElem?_cons_succ, List.drop_succ_cons] using h3
        · intro g1 g2
          simpa only [entryLoop, List.getElem?_cons_succ] using h4 (by simpa using g1) g2


/-- The frames of the directories that the search has gone through, as far as they are looked at. -/
def Window (a : Nat) (frames : List Frame) (ds : List Path) : Prop :=
  ∀ k, k + 1 < a → ∃ (f : Frame) (d : Path), frames[k]? = some f ∧ ds[k]? = some d ∧ StatOf fs d f.st

theorem reentry_false {st : Stat} {frames : List Frame} {count : Nat}
    (h : ∀ (k : Nat) (f : Frame), k < count → frames[k]? = some f → sameFile st f.st = false) :
    isReentry st frames count = false := by
  induction frames generalizing count with
  | nil => rfl
  | cons f frames ih =>
    cases count with
    | zero => rfl
    | succ count =>
      simp only [isReentry, Bool.or_eq_false_iff]
      exact ⟨h 0 f (by omega) rfl, ih (fun k g hk hg => h (k + 1) g (by omega) (by simpa using hg))⟩

theorem recurse_ok (hs : Sane fs) {name path : Path} {f hd : Bool} {st st' : Stat} {frames : List Frame}
    {a : Nat} {ds : List Path} (he : Enters fs f hd path name st') (hw : Window fs a frames ds)
    (hd' : ∀ d ∈ ds, ∀ s, fs.stat d = some s → ¬ (s.dev = st'.dev ∧ s.ino = st'.ino)) :
    shouldRecurse fs name (path ++ name) f hd st frames (a - 1) = (true, st') := by
  obtain ⟨-, -, e2, e3, e4, e5, e6⟩ := he
  have hn : hiddenName hd name = false := by
    unfold hiddenName
    cases hd with
    | true => simp [e3, e4]
    | false =>
      cases name with
      | nil => rfl
      | cons c n =>
        simp
        rintro rfl
        exact e2 rfl n rfl
  have hst : StatOf fs (path ++ name) st' := by
    cases f with
    | true => exact Or.inl (by simpa using e5)
    | false => exact Or.inr (by simpa using e5)
  unfold shouldRecurse
  rw [if_neg (by rw [hn]; simp), e5]
  simp only [e6]
  rw [reentry_false]
  · simp
  · intro k g hk hg
    obtain ⟨f', d, h1, h2, h3⟩ := hw k (by omega)
    rw [hg] at h1
    cases h1
    cases hsame : sameFile st' g.st with
    | false => rfl
    | true =>
      simp only [sameFile, Bool.and_eq_true, beq_iff_eq] at hsame
      have hdir := hs.kind _ _ _ _ hst h3 hsame.1 hsame.2
      have hstat : fs.stat d = some g.st := by
        rcases h3 with h3 | h3
        · exact h3
        · exact hs.notLink _ _ h3 (by rw [← hdir]; exact e6)
      exact absurd ⟨hsame.1.symm, hsame.2.symm⟩ (hd' d (List.mem_of_getElem? h2) _ hstat)

/-- Below a name that a component takes, the search goes on with the next component. -/
theorem entry_next {name path : Path} {ex : Bool} {prev : List Frame} {act : List Nat} {fuel : Nat}
    {y : List Path} (hl : act.length = comps.length)
    (hy : scandirEntry loc fs junk comps flags (search loc fs junk comps flags fuel) path prev act
      ex name = some y) {i a : Nat} {c : Comp} (hc : comps[i]? = some c) (ha : act[i]? = some a)
    (ha0 : a ≠ 0) (ht : Takes loc name c) (hlt : i + 1 < comps.length) :
    ∃ (t : Frame) (deeper : List Path), t.active.length = comps.length ∧
      (∀ a ∈ t.active, a < 256) ∧
      search loc fs junk comps flags fuel (path ++ name ++ ['/']) prev t = some deeper ∧
      (∀ r ∈ deeper, r ∈ y) ∧ (activate comps t.active)[i + 1]? = some 1 := by
  unfold scandirEntry at hy
  obtain ⟨cur, st, h1, h2, h3, h4⟩ := entry_at loc fs flags (name := name) (path := path ++ name)
    (ex := ex) (prev := prev) (cur := 0) (st := junk (path ++ name)) (Nat.zero_le _) hl hc ha
  generalize hloop : entryLoop loc fs flags name (path ++ name) ex prev comps act 0
        (junk (path ++ name)) = L at hy h2 h3 h4
  simp only at hy
  cases hse : search loc fs junk comps flags fuel (path ++ name ++ ['/']) prev ⟨L.2.1, L.2.2⟩ with
  | none => rw [hse] at hy; cases hy
  | some deeper =>
    rw [hse] at hy
    simp only [Option.some.injEq] at hy
    refine ⟨_, deeper, ?_, ?_, hse, ?_, ?_⟩
    · rw [← hloop, entryLoop_length _ _ _ _ _ _ _ _ _ _ _ hl, hl]
    · rw [← hloop]
      exact entryLoop_bound _ _ _ _ _ _ _ _ _ _ _ (by decide)
    · intro r hr
      rw [← hy]
      exact List.mem_append.mpr (Or.inr hr)
    · have hnr : ∀ f h, c ≠ .recsearch f h := by
        rintro f h rfl
        rcases ht with ht | ⟨x, ht, -⟩ <;> cases ht
      rw [activate_next hc hnr]
      apply h4 hlt
      rw [step_takes loc fs flags ha0 ht]
      rw [if_neg (by simp; omega)]

theorem entry_last {name path : Path} {ex : Bool} {prev : List Frame} {act : List Nat} {fuel : Nat}
    {y : List Path} (hl : act.length = comps.length)
    (hy : scandirEntry loc fs junk comps flags (search loc fs junk comps flags fuel) path prev act
      ex name = some y) {i a : Nat} {c : Comp} (hc : comps[i]? = some c) (ha : act[i]? = some a)
    (ha0 : a ≠ 0) (ht : Takes loc name c) (hlt : i + 1 = comps.length) :
    ∀ r ∈ shownResult fs flags (path ++ name) ex c, r ∈ y := by
  intro r hr
  unfold scandirEntry at hy
  obtain ⟨cur, st, h1, h2, h3, h4⟩ := entry_at loc fs flags (name := name) (path := path ++ name)
    (ex := ex) (prev := prev) (cur := 0) (st := junk (path ++ name)) (Nat.zero_le _) hl hc ha
  generalize hloop : entryLoop loc fs flags name (path ++ name) ex prev comps act 0
        (junk (path ++ name)) = L at hy h2 h3 h4
  simp only at hy
  cases hse : search loc fs junk comps flags fuel (path ++ name ++ ['/']) prev ⟨L.2.1, L.2.2⟩ with
  | none => rw [hse] at hy; cases hy
  | some deeper =>
    rw [hse] at hy
    simp only [Option.some.injEq] at hy
    rw [← hy]
    apply List.mem_append.mpr
    left
    apply h2
    rw [step_takes loc fs flags ha0 ht, List.drop_eq_nil_of_le (by omega)]
    exact hr

theorem finds_once_exists {fs : FS} {o : Options} {loc : Locale} (hs : Sane fs) {ps : List Part} {p r : Path} {ds : List Path}
    (h : FindsOnce loc fs o (Listed fs) (fun p n => Exists fs (p ++ n)) ps p ds r) :
    p ≠ [] → ∃ q, Exists fs (p ++ q) := by
  have listed : ∀ {p n : Path}, p ≠ [] → Listed fs p n → ∃ q, Exists fs (p ++ q) := by
    rintro p n hp ⟨ns, h, -⟩
    refine ⟨[], ?_⟩
    rw [List.append_nil]
    have := hs.read _ _ h
    simpa [dirOf, hp] using this
  induction h with
  | lastName n p ds he => exact fun _ => ⟨n, he⟩
  | name n p r ds part parts _ ih =>
    intro _
    obtain ⟨q, hq⟩ := ih (by simp)
    exact ⟨n ++ ['/'] ++ q, by simpa using hq⟩
  | lastPattern as n p r ds hw _ _ => exact fun hp => listed hp hw
  | pattern as n p r ds part parts hw _ _ _ => exact fun hp => listed hp hw
  | here f h p r ds parts _ ih => exact ih
  | deeper f h n p r st ds parts hw _ _ _ _ _ => exact fun hp => listed hp hw

theorem once_ne_nil {fs : FS} {o : Options} {loc : Locale} {P Q : Path → Path → Prop} {ps : List Part}
    {p r : Path} {ds : List Path} (h : FindsOnce loc fs o P Q ps p ds r) : ps ≠ [] := by
  cases h <;> simp

theorem search_complete {o : Options} {parts : List Part} (hs : Sane fs)
    (hr : Reps loc o comps parts) (hm : o.markdirs = flags.mark)
    (hlit : ∀ n, Comp.literal n ∈ comps → '/' ∉ n) {ps : List Part} {path r : Path} {ds : List Path}
    (D : FindsOnce loc fs o (Listed fs) (fun p n => Exists fs (p ++ n)) ps path ds r) :
    ∀ (fuel : Nat) (prev : List Frame) (t : Frame) (res : List Path) (i a : Nat),
      (path = [] ∨ ∃ p', path = p' ++ ['/']) →
      t.active.length = comps.length → (∀ a ∈ t.active, a < 256) →
      search loc fs junk comps flags fuel path prev t = some res →
      ps = parts.drop i → (activate comps t.active)[i]? = some a → a ≠ 0 → a ≤ ds.length + 1 →
      Window fs a (⟨activate comps t.active, t.st⟩ :: prev) ds → r ∈ res := by
  -- a literal component
  have literal : ∀ (path : Path) (fuel : Nat) (prev : List Frame) (t : Frame) (res : List Path)
      (i a : Nat) (n : Path), (path = [] ∨ ∃ p', path = p' ++ ['/']) →
      t.active.length = comps.length →
      search loc fs junk comps flags fuel path prev t = some res →
      comps[i]? = some (.literal n) → (activate comps t.active)[i]? = some a → a ≠ 0 →
      (n ≠ [] → ∃ q, (q = [] ∨ ∃ q', q = '/' :: q') ∧ Exists fs (path ++ n ++ q)) →
      (i + 1 = comps.length → Exists fs (path ++ n) → path ++ n ∈ res) ∧
      (i + 1 < comps.length → ∃ (fuel : Nat) (prev : List Frame) (t : Frame) (deeper : List Path),
        t.active.length = comps.length ∧ (∀ a ∈ t.active, a < 256) ∧
        search loc fs junk comps flags fuel (path ++ n ++ ['/']) prev t = some deeper ∧
        (∀ r ∈ deeper, r ∈ res) ∧ (activate comps t.active)[i + 1]? = some 1) := by
    intro path fuel prev t res i a n hp hl h hc ha ha0 hex
    cases fuel with
    | zero => simp [search] at h
    | succ fuel =>
      rw [search] at h
      have hl' : (activate comps t.active).length = comps.length := by rw [activate_length, hl]
      generalize activate comps t.active = act at h hl' ha
      generalize (⟨act, t.st⟩ : Frame) :: prev = prev' at h
      have ht : Takes loc n (.literal n) := Or.inl rfl
      have tried : ∀ ex y, scandirEntry loc fs junk comps flags (search loc fs junk comps flags fuel)
          path prev' act ex n = some y → (∀ r ∈ y, r ∈ res) →
          (i + 1 = comps.length → Exists fs (path ++ n) → path ++ n ∈ res) ∧
          (i + 1 < comps.length → ∃ (fuel : Nat) (prev : List Frame) (t : Frame) (deeper : List Path),
            t.active.length = comps.length ∧ (∀ a ∈ t.active, a < 256) ∧
            search loc fs junk comps flags fuel (path ++ n ++ ['/']) prev t = some deeper ∧
            (∀ r ∈ deeper, r ∈ res) ∧ (activate comps t.active)[i + 1]? = some 1) := by
        intro ex y hy hsub
        refine ⟨fun hi he => ?_, fun hi => ?_⟩
        · apply hsub
          apply entry_last loc fs junk comps flags hl' hy hc ha ha0 ht hi
          have e : shownResult fs flags (path ++ n) ex (.literal n) = [path ++ n] := by
            unfold shownResult
            simp only
            rw [mem_addResult fs (fun _ => he)]
            simp
          rw [e]
          simp
        · obtain ⟨t2, deeper, g1, g2, g3, g4, g5⟩ :=
            entry_next loc fs junk comps flags hl' hy hc ha ha0 ht hi
          exact ⟨fuel, prev', t2, deeper, g1, g2, g3, fun r hr => hsub r (g4 r hr), g5⟩
      have hmem : (i, n) ∈ activeLiterals 0 comps act :=
        mem_activeLiterals.mpr ⟨i, by omega, hc, a, ha, ha0⟩
      unfold searchDir at h
      split at h
      · rename_i names hn
        have hread : fs.readdir (dirOf path) = some names := by
          split at hn
          · exact hn
          · cases hn
        obtain ⟨hall, hcol⟩ := collect_some h
        by_cases hne : n = []
        · obtain ⟨y, hy⟩ := hall _ (List.mem_cons_self ..)
          rw [← hne] at hy
          refine tried true y hy (fun r hr => (hcol r).mpr ⟨y, ?_, hr⟩)
          rw [← hne, hy]
          exact List.mem_cons_self ..
        · obtain ⟨q, hq, hqe⟩ := hex hne
          have hin := hs.complete path names n q hread hne (hlit n (List.mem_of_getElem? hc)) hp hq hqe
          have hin' := List.mem_map_of_mem (f := scandirEntry loc fs junk comps flags
            (search loc fs junk comps flags fuel) path prev' act false) hin
          obtain ⟨y, hy⟩ := hall _ (List.mem_cons_of_mem _ hin')
          refine tried false y hy (fun r hr => (hcol r).mpr ⟨y, ?_, hr⟩)
          rw [hy] at hin'
          exact List.mem_cons_of_mem _ hin'
      · split at h
        · obtain ⟨hall, hcol⟩ := collect_some h
          have hin' := List.mem_map_of_mem (f := literalEach fs junk comps
            (search loc fs junk comps flags fuel) path prev') hmem
          obtain ⟨y, hy⟩ := hall _ hin'
          rw [hy] at hin'
          have hsub : ∀ r ∈ y, r ∈ res := fun r hr => (hcol r).mpr ⟨y, hin', hr⟩
          unfold literalEach at hy
          refine ⟨fun hi he => ?_, fun hi => ?_⟩
          · rw [if_neg (by simp only; omega)] at hy
            simp only [Option.some.injEq] at hy
            apply hsub
            rw [← hy, mem_addResult fs (fun _ => he)]
            simp
          · rw [if_pos (by simp only; omega)] at hy
            refine ⟨fuel, prev', _, y, ?_, ?_, hy, hsub, ?_⟩
            · simp [onlyActive]
            · intro b hb
              simp only [onlyActive] at hb
              rcases List.mem_or_eq_of_mem_set hb with h | rfl
              · rw [List.eq_of_mem_replicate h]; decide
              · decide
            · rw [activate_next hc (by intro f h e; cases e)]
              simp [onlyActive, hi]
        · obtain ⟨hall, hcol⟩ := collect_some h
          have hin : n ∈ uniqueNames ((activeLiterals 0 comps act).map (·.2)) :=
            mem_uniqueNames.mpr (List.mem_map.mpr ⟨(i, n), hmem, rfl⟩)
          have hin' := List.mem_map_of_mem (f := scandirEntry loc fs junk comps flags
            (search loc fs junk comps flags fuel) path prev' act true) hin
          obtain ⟨y, hy⟩ := hall _ hin'
          rw [hy] at hin'
          exact tried true y hy (fun r hr => (hcol r).mpr ⟨y, hin', hr⟩)
  -- a name that is listed
  have listed : ∀ (path : Path) (fuel : Nat) (prev : List Frame) (act : List Nat) (res : List Path)
      (i a : Nat) (c : Comp) (n : Path), 
      searchDir loc fs junk comps flags (search loc fs junk comps flags fuel) path prev act = some res →
      comps[i]? = some c → (∀ n, c ≠ .literal n) → act[i]? = some a → a ≠ 0 → Listed fs path n →
      ∃ y, scandirEntry loc fs junk comps flags (search loc fs junk comps flags fuel)
          path prev act false n = some y ∧ ∀ r ∈ y, r ∈ res := by
    intro path fuel prev act res i a c n h hc hcl ha ha0 hl
    have hma : activeMatchers comps act = true := activeMatchers_iff.mpr ⟨i, c, a, hc, hcl, ha, ha0⟩
    obtain ⟨names, hread, hin⟩ := hl
    unfold searchDir at h
    rw [if_pos hma] at h
    unfold dirOf at hread
    rw [hread] at h
    obtain ⟨hall, hcol⟩ := collect_some h
    have hin' := List.mem_map_of_mem (f := scandirEntry loc fs junk comps flags
            (search loc fs junk comps flags fuel) path prev act false) hin
    obtain ⟨y, hy⟩ := hall _ (List.mem_cons_of_mem _ hin')
    refine ⟨y, hy, fun r hr => (hcol r).mpr ⟨y, ?_, hr⟩⟩
    rw [hy] at hin'
    exact List.mem_cons_of_mem _ hin'
  have dropLast : ∀ (i : Nat) (p : Part), [p] = parts.drop i → i + 1 = comps.length := by
    intro i p h
    have := congrArg List.length h
    simp at this
    rw [hr.length]
    omega
  have dropMore : ∀ (i : Nat) (p p' : Part) (ps : List Part), p :: p' :: ps = parts.drop i →
      i + 1 < comps.length ∧ p' :: ps = parts.drop (i + 1) := by
    intro i p p' ps h
    have h2 := congrArg List.length h
    simp at h2
    refine ⟨by rw [hr.length]; omega, ?_⟩
    obtain ⟨-, -, -, e⟩ := hr.comp h.symm
    exact e
  have w1 : ∀ frames ds, Window fs 1 frames ds := fun frames ds k hk => by omega
  induction D with
  | lastName n p ds he =>
    intro fuel prev t res i a hp hl hb h hps ha ha0 had hw
    obtain ⟨c, hc, hrep, -⟩ := hr.comp hps.symm
    cases hrep
    exact (literal p fuel prev t res i a n hp hl h hc ha ha0
      (fun _ => ⟨[], Or.inl rfl, by simpa using he⟩)).1 (dropLast i _ hps) he
  | name n p r ds part ps D ih =>
    intro fuel prev t res i a hp hl hb h hps ha ha0 had hw
    obtain ⟨c, hc, hrep, -⟩ := hr.comp hps.symm
    cases hrep
    obtain ⟨hlt, hps'⟩ := dropMore i _ _ _ hps
    obtain ⟨fuel', prev', t', deeper, g1, g2, g3, g4, g5⟩ :=
      (literal p fuel prev t res i a n hp hl h hc ha ha0 (fun _ => by
        obtain ⟨q, hq⟩ := finds_once_exists hs D (by simp)
        exact ⟨'/' :: q, Or.inr ⟨q, rfl⟩, by simpa using hq⟩)).2 hlt
    exact g4 r (ih fuel' prev' t' deeper (i + 1) 1 (Or.inr ⟨_, rfl⟩) g1 g2 g3 hps' g5 (by decide)
      (by simp) (w1 _ _))
  | lastPattern as n p r ds hlist hnm hsh =>
    intro fuel prev t res i a hp hl hb h hps ha ha0 had hw
    obtain ⟨c, hc, hrep, -⟩ := hr.comp hps.symm
    cases hrep with
    | «match» x as hx =>
      cases fuel with
      | zero => simp [search] at h
      | succ fuel =>
        rw [search] at h
        have hl' : (activate comps t.active).length = comps.length := by rw [activate_length, hl]
        obtain ⟨y, hy, hsub⟩ := listed p fuel _ _ res i a _ n h hc (by intro n e; cases e) ha ha0 hlist
        apply hsub
        apply entry_last loc fs junk comps flags hl' hy hc ha ha0
          (Or.inr ⟨x, rfl, hnm.1, (hx n hnm.1 hnm.2.1).mpr hnm⟩) (dropLast i _ hps)
        unfold shownResult
        simp only
        rw [mem_addResult fs (by simp)]
        have hany : (fs.stat (p ++ n)).any (·.dir) = true ↔ IsDir fs (p ++ n) := by
          unfold IsDir
          cases fs.stat (p ++ n) <;> simp
        rw [List.mem_singleton]
        cases hsh with
        | marked h1 h2 => rw [if_pos ⟨hm ▸ h1, hany.mpr h2⟩]
        | plain h1 => rw [if_neg (fun e => h1 ⟨hm ▸ e.1, hany.mp e.2⟩)]
  | pattern as n p r ds part ps hlist hnm D ih =>
    intro fuel prev t res i a hp hl hb h hps ha ha0 had hw
    obtain ⟨c, hc, hrep, -⟩ := hr.comp hps.symm
    obtain ⟨hlt, hps'⟩ := dropMore i _ _ _ hps
    cases hrep with
    | «match» x as hx =>
      cases fuel with
      | zero => simp [search] at h
      | succ fuel =>
        rw [search] at h
        have hl' : (activate comps t.active).length = comps.length := by rw [activate_length, hl]
        obtain ⟨y, hy, hsub⟩ := listed p fuel _ _ res i a _ n h hc (by intro n e; cases e) ha ha0 hlist
        obtain ⟨t', deeper, g1, g2, g3, g4, g5⟩ := entry_next loc fs junk comps flags hl' hy hc ha ha0
          (Or.inr ⟨x, rfl, hnm.1, (hx n hnm.1 hnm.2.1).mpr hnm⟩) hlt
        exact hsub r (g4 r (ih fuel _ t' deeper (i + 1) 1 (Or.inr ⟨_, rfl⟩) g1 g2 g3 hps' g5
          (by decide) (by simp) (w1 _ _)))
  | here f hd p r ds ps D ih =>
    intro fuel prev t res i a hp hl hb h hps ha ha0 had hw
    obtain ⟨c, hc, hrep, hps'⟩ := hr.comp hps.symm
    cases hrep
    have hlt : i + 1 < comps.length := by
      have := once_ne_nil D
      rw [hps'] at this
      rw [hr.length]
      simp at this
      exact this
    have hl' : (activate comps t.active).length = comps.length := by rw [activate_length, hl]
    have hb' : (activate comps t.active)[i + 1]? = some (activate comps t.active)[i + 1] :=
      List.getElem?_eq_getElem (by omega)
    have e := chain_activate comps t.active i f hd a _ hc ha ha0 hb'
    rw [e] at hb'
    exact ih fuel prev t res (i + 1) a hp hl hb h hps' hb' ha0 had hw
  | deeper f hd n p r st ds ps hlist hent hnew hlen D ih =>
    intro fuel prev t res i a hp hl hb h hps ha ha0 had hw
    obtain ⟨c, hc, hrep, hps'⟩ := hr.comp hps.symm
    cases hrep
    cases fuel with
    | zero => simp [search] at h
    | succ fuel =>
      rw [search] at h
      have hl' : (activate comps t.active).length = comps.length := by rw [activate_length, hl]
      have hb' := activate_bound comps t.active 256 hb
      have hch := chain_activate comps t.active
      obtain ⟨y, hy, hsub⟩ := listed p fuel _ _ res i a _ n h hc (by intro n e; cases e) ha ha0 hlist
      apply hsub
      generalize activate comps t.active = act at *
      generalize hprev : (⟨act, t.st⟩ : Frame) :: prev = prev' at *
      unfold scandirEntry at hy
      obtain ⟨cur, st0, h1, -, h3, -⟩ := entry_at loc fs flags (name := n) (path := p ++ n)
        (ex := false) (prev := prev') (cur := 0) (st := junk (p ++ n)) (Nat.zero_le _) hl' hc ha
      have hvals := entry_values loc fs flags (name := n) (path := p ++ n) (ex := false)
        (prev := prev') (cs := comps) (cur := 0) (st := junk (p ++ n)) (Nat.zero_le _) hb'
      have hstat := (entry_st loc fs flags (name := n) (path := p ++ n) (ex := false)
        (prev := prev') (cs := comps) (as := act) (cur := 0) (st := junk (p ++ n)) (Nat.zero_le _)).2
      have hlen' := entryLoop_length loc fs flags n (p ++ n) false prev' comps act 0 (junk (p ++ n)) hl'
      have hbound := entryLoop_bound loc fs flags n (p ++ n) false prev' comps act 0 (junk (p ++ n))
        (by decide)
      generalize entryLoop loc fs flags n (p ++ n) false prev' comps act 0 (junk (p ++ n)) = L at *
      simp only at hy
      cases hse : search loc fs junk comps flags fuel (p ++ n ++ ['/']) prev' ⟨L.2.1, L.2.2⟩ with
      | none => rw [hse] at hy; cases hy
      | some deeper =>
        rw [hse] at hy
        simp only [Option.some.injEq] at hy
        rw [← hy]
        apply List.mem_append.mpr
        right
        -- the component stays active
        have hv0 : (stepComponent loc fs flags n (p ++ n) false (List.drop (i + 1) comps).isEmpty prev'
            (.recsearch f hd) a cur st0).value ≠ 0 := by
          simp only [stepComponent, if_neg ha0, if_neg hent.1]
          split
          · rw [recurse_ok fs hs hent hw hnew]
            simp only [if_true]
            rw [Nat.mod_eq_of_lt (by omega)]
            omega
          · assumption
        obtain ⟨v, hv, hv0'⟩ := activate_nonzero (cs := comps) h3 hv0
        have hfol := activate_values hch hlen' hvals i a v ha hv
        apply ih fuel prev' ⟨L.2.1, L.2.2⟩ deeper i v (Or.inr ⟨_, rfl⟩) (by simp only; omega) hbound hse hps
          hv hv0'
        · simp only [List.length_cons]
          rcases hfol with hfol | ⟨-, hfol⟩ <;> omega
        · rcases hfol with hfol | ⟨-, hfol⟩
          · intro k hk
            omega
          · intro k hk
            cases k with
            | zero =>
              refine ⟨_, _, rfl, rfl, ?_⟩
              exact hstat v (activate_mem (List.mem_of_getElem? hv)) (by omega)
            | succ k =>
              obtain ⟨g, d, g1, g2, g3⟩ := hw k (by omega)
              exact ⟨g, d, by simpa using g1, by simpa using g2, g3⟩

end

end Yash.Glob
