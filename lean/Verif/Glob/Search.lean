import Verif.Glob.Lemmas
/-!
# The search ends
-/
set_option autoImplicit false

namespace Yash.Glob

open Fnmatch (Compiled Locale)

/-- How deep the search can go: the first active component only moves to the right, or is a
recursive search component whose value increases. -/
def rank : List Nat → Nat
  | [] => 0
  | a :: as => if a = 0 then rank as else 256 * as.length + (256 - a)

theorem rank_lt (as : List Nat) : rank as ≤ 256 * as.length := by
  induction as with
  | nil => simp [rank]
  | cons a as ih =>
    unfold rank
    split
    · simp; omega
    · simp; omega

theorem rank_lt' (as : List Nat) (h : as ≠ []) : rank as < 256 * as.length := by
  induction as with
  | nil => exact absurd rfl h
  | cons a as ih =>
    unfold rank
    have := rank_lt as
    split
    · simp; omega
    · simp; omega

theorem rank_activate (cs : List Comp) (as : List Nat) : rank (activate cs as) = rank as := by
  induction cs generalizing as with
  | nil => simp [activate]
  | cons c cs ih =>
    have key : ∀ (a : Nat) (as : List Nat), rank (a :: activate cs as) = rank (a :: as) := by
      intro a as
      simp only [rank, ih, activate_length]
    cases as with
    | nil => simp [activate]
    | cons a as =>
      cases as with
      | nil => cases c <;> simp only [activate, key]
      | cons b as =>
        cases c with
        | literal _ => simp only [activate, key]
        | «match» _ => simp only [activate, key]
        | recsearch _ _ =>
          simp only [activate, key]
          by_cases ha : a = 0
          · simp [ha, rank]
          · simp [ha, rank]

section
variable (loc : Locale) (fs : FS) (junk : Path → Stat) (comps : List Comp) (flags : GlobFlags)

theorem entryLoop_length (name path : Path) (ex : Bool) (prev : List Frame) (cs : List Comp)
    (as : List Nat) (cur : Nat) (st : Stat) (h : as.length = cs.length) :
    (entryLoop loc fs flags name path ex prev cs as cur st).2.1.length = as.length := by
  induction cs generalizing as cur st with
  | nil =>
    cases as with
    | nil => rfl
    | cons _ _ => simp at h
  | cons c cs ih =>
    cases as with
    | nil => simp at h
    | cons a as =>
      simp only [entryLoop, List.length_cons]
      rw [ih]
      simpa using h

theorem step_active (name path : Path) (ex last : Bool) (prev : List Frame) (c : Comp) (a cur : Nat)
    (st : Stat) :
    (stepComponent loc fs flags name path ex last prev c a cur st).value = cur ∨
      (a ≠ 0 ∧ cur = 0 ∧ (∃ f h, c = .recsearch f h) ∧
        (stepComponent loc fs flags name path ex last prev c a cur st).value = (a + 1) % 256) := by
  unfold stepComponent
  split
  · exact Or.inl rfl
  · rename_i ha
    cases c with
    | literal n =>
      left
      simp only
      split
      · rfl
      · split <;> rfl
    | «match» x =>
      left
      simp only
      split
      · rfl
      · split
        · rfl
        · split <;> rfl
    | recsearch f h =>
      simp only
      split
      · exact Or.inl rfl
      · split
        · rename_i hc
          split
          · exact Or.inr ⟨ha, hc, ⟨f, h, rfl⟩, rfl⟩
          · exact Or.inl hc.symm
        · exact Or.inl rfl

theorem step_next (name path : Path) (ex last : Bool) (prev : List Frame) (c : Comp) (a cur : Nat)
    (st : Stat) :
    (stepComponent loc fs flags name path ex last prev c a cur st).next ≤ 1 := by
  unfold stepComponent
  split
  · simp
  · cases c with
    | literal n => simp only; (repeat' split) <;> simp
    | «match» x => simp only; (repeat' split) <;> simp
    | recsearch f h => simp only; (repeat' split) <;> simp

theorem step_zero (name path : Path) (ex last : Bool) (prev : List Frame) (c : Comp) (cur : Nat)
    (st : Stat) :
    stepComponent loc fs flags name path ex last prev c 0 cur st = ⟨[], cur, 0, st⟩ := by
  simp [stepComponent]

theorem rank_entryLoop (name path : Path) (ex : Bool) (prev : List Frame) (cs : List Comp)
    (as : List Nat) (st : Stat) (h : as.length = cs.length) (hb : ∀ a ∈ as, a < 256)
    (hr : rank as ≠ 0) :
    rank (entryLoop loc fs flags name path ex prev cs as 0 st).2.1 < rank as := by
  induction cs generalizing as st with
  | nil =>
    cases as with
    | nil => exact absurd rfl hr
    | cons _ _ => simp at h
  | cons c cs ih =>
    cases as with
    | nil => simp at h
    | cons a as =>
      simp only [List.length_cons, Nat.add_right_cancel_iff] at h
      by_cases ha : a = 0
      · subst ha
        simp only [entryLoop, step_zero]
        simp only [rank, if_true] at hr ⊢
        exact ih as st h (fun a ha => hb a (by simp [ha])) hr
      · simp only [entryLoop]
        have hlt := hb a (by simp)
        have hl := entryLoop_length loc fs flags name path ex prev cs as
          (stepComponent loc fs flags name path ex cs.isEmpty prev c a 0 st).next
          (stepComponent loc fs flags name path ex cs.isEmpty prev c a 0 st).st h
        have hr' := rank_lt (entryLoop loc fs flags name path ex prev cs as
          (stepComponent loc fs flags name path ex cs.isEmpty prev c a 0 st).next
          (stepComponent loc fs flags name path ex cs.isEmpty prev c a 0 st).st).2.1
        rw [hl] at hr'
        have e : rank (a :: as) = 256 * as.length + (256 - a) := by simp [rank, ha]
        rw [e]
        rcases step_active loc fs flags name path ex cs.isEmpty prev c a 0 st with hv | ⟨_, _, _, hv⟩
        · rw [hv]
          simp only [rank, if_true]
          omega
        · rw [hv]
          unfold rank
          split
          · omega
          · rename_i hm
            rw [hl]
            have : a + 1 ≠ 256 := by
              intro h
              rw [h] at hm
              exact hm rfl
            rw [Nat.mod_eq_of_lt (by omega)]
            omega

theorem entryLoop_bound (name path : Path) (ex : Bool) (prev : List Frame) (cs : List Comp)
    (as : List Nat) (cur : Nat) (st : Stat) (hc : cur < 256) :
    ∀ a ∈ (entryLoop loc fs flags name path ex prev cs as cur st).2.1, a < 256 := by
  induction cs generalizing as cur st with
  | nil => simp [entryLoop]
  | cons c cs ih =>
    cases as with
    | nil => simp [entryLoop]
    | cons a as =>
      intro b hb
      simp only [entryLoop, List.mem_cons] at hb
      rcases hb with rfl | hb
      · rcases step_active loc fs flags name path ex cs.isEmpty prev c a cur st with h | ⟨_, _, _, h⟩
        · rw [h]; exact hc
        · rw [h]; exact Nat.mod_lt _ (by decide)
      · refine ih as _ _ ?_ b hb
        have := step_next loc fs flags name path ex cs.isEmpty prev c a cur st
        omega

theorem activate_bound (cs : List Comp) (as : List Nat) (N : Nat) (h : ∀ a ∈ as, a < N) :
    ∀ a ∈ activate cs as, a < N := by
  induction cs generalizing as with
  | nil => simpa [activate] using h
  | cons c cs ih =>
    cases as with
    | nil => simp [activate]
    | cons a as =>
      have key : ∀ as', (∀ a ∈ as', a < N) → ∀ b ∈ a :: activate cs as', b < N := by
        intro as' h' b hb
        rcases List.mem_cons.mp hb with rfl | hb
        · exact h b (by simp)
        · exact ih as' h' b hb
      cases as with
      | nil => cases c <;> exact key [] (by simp)
      | cons b as =>
        have ht : ∀ a ∈ b :: as, a < N := fun a ha => h a (by simp at ha ⊢; exact Or.inr ha)
        cases c with
        | literal _ => exact key _ ht
        | «match» _ => exact key _ ht
        | recsearch _ _ =>
          refine key _ ?_
          intro d hd
          rcases List.mem_cons.mp hd with rfl | hd
          · split
            · exact h a (by simp)
            · exact h b (by simp)
          · exact h d (by simp [hd])

theorem rank_onlyActive (i : Nat) (h : i < comps.length) :
    rank (onlyActive comps i) = 256 * (comps.length - 1 - i) + 255 := by
  unfold onlyActive
  generalize comps.length = n at h ⊢
  induction i generalizing n with
  | zero =>
    cases n with
    | zero => omega
    | succ n => simp [List.replicate_succ, rank]
  | succ i ih =>
    cases n with
    | zero => omega
    | succ n =>
      simp only [List.replicate_succ, List.set_cons_succ, rank, if_true]
      rw [ih n (by omega)]
      congr 2
      omega

theorem rank_of_active {as : List Nat} (hb : ∀ a ∈ as, a < 256) {j a : Nat} (h : as[j]? = some a) (ha : a ≠ 0) :
    256 * (as.length - 1 - j) < rank as := by
  induction as generalizing j with
  | nil => simp at h
  | cons b as ih =>
    cases j with
    | zero =>
      simp only [List.getElem?_cons_zero, Option.some.injEq] at h
      subst h
      have := hb b (by simp)
      simp [rank, ha]
      omega
    | succ j =>
      simp only [List.getElem?_cons_succ] at h
      have := ih (fun a ha => hb a (by simp [ha])) h
      have hj : j < as.length := (List.getElem?_eq_some_iff.mp h).1
      have hb' := hb b (by simp)
      unfold rank
      split
      · simp only [List.length_cons]
        have e : as.length + 1 - 1 - (j + 1) = as.length - 1 - j := by omega
        rw [e]
        exact this
      · simp only [List.length_cons]
        omega

theorem search_some (fuel : Nat) (path : Path) (prev : List Frame) (t : Frame)
    (hl : t.active.length = comps.length) (hb : ∀ a ∈ t.active, a < 256)
    (hf : rank t.active < fuel) :
    ∃ res, search loc fs junk comps flags fuel path prev t = some res := by
  induction fuel generalizing path prev t with
  | zero => omega
  | succ fuel ih =>
    have hl' : (activate comps t.active).length = comps.length := by rw [activate_length, hl]
    have hb' := activate_bound comps t.active 256 hb
    have hr' := rank_activate comps t.active
    rw [search]
    generalize activate comps t.active = act at hl' hb' hr' ⊢
    have entry : ∀ ex name prev', rank act ≠ 0 →
        ∃ y, scandirEntry loc fs junk comps flags (search loc fs junk comps flags fuel) path prev' act
          ex name = some y := by
      intro ex name prev' hne
      have h1 := rank_entryLoop loc fs flags name (path ++ name) ex prev' comps act
        (junk (path ++ name)) hl' hb' hne
      obtain ⟨deeper, hd⟩ := ih (path ++ name ++ ['/']) prev'
        ⟨(entryLoop loc fs flags name (path ++ name) ex prev' comps act 0 (junk (path ++ name))).2.1,
         (entryLoop loc fs flags name (path ++ name) ex prev' comps act 0 (junk (path ++ name))).2.2⟩
        (by simp only [entryLoop_length _ _ _ _ _ _ _ _ _ _ _ hl', hl'])
        (entryLoop_bound _ _ _ _ _ _ _ _ _ _ _ (by decide)) (by simp only; omega)
      exact ⟨_, by simp only [scandirEntry, hd]; rfl⟩
    unfold searchDir
    split
    · rename_i names hn
      have hm : activeMatchers comps act = true := by
        cases h : activeMatchers comps act with
        | true => rfl
        | false => rw [h] at hn; simp at hn
      obtain ⟨j, c, a, -, -, h1, h2⟩ := activeMatchers_iff.mp hm
      have hne : rank act ≠ 0 := by
        have := rank_of_active hb' h1 h2
        omega
      apply collect_isSome
      intro x hx
      rcases List.mem_cons.mp hx with rfl | hx
      · exact entry _ _ _ hne
      · obtain ⟨n, -, rfl⟩ := List.mem_map.mp hx
        exact entry _ _ _ hne
    · split
      · apply collect_isSome
        intro x hx
        obtain ⟨⟨i, n⟩, hin, rfl⟩ := List.mem_map.mp hx
        obtain ⟨j, rfl, -, a, h1, h2⟩ := mem_activeLiterals.mp hin
        have hr := rank_of_active hb' h1 h2
        unfold literalEach
        split
        · rename_i hlt
          apply ih
          · simp [onlyActive]
          · intro a ha
            simp only [onlyActive] at ha
            rcases List.mem_or_eq_of_mem_set ha with h | rfl
            · rw [List.eq_of_mem_replicate h]; decide
            · decide
          · rw [rank_onlyActive comps _ hlt]
            simp only at hlt
            rw [hl'] at hr
            simp only
            omega
        · exact ⟨_, rfl⟩
      · apply collect_isSome
        intro x hx
        obtain ⟨n, hn, rfl⟩ := List.mem_map.mp hx
        rw [mem_uniqueNames] at hn
        obtain ⟨⟨i, n'⟩, hin, -⟩ := List.mem_map.mp hn
        obtain ⟨j, rfl, -, a, h1, h2⟩ := mem_activeLiterals.mp hin
        exact entry _ _ _ (by have := rank_of_active hb' h1 h2; omega)

end

end Yash.Glob
