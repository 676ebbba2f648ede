import Verif.Redir.Spec
/-!
# Lemmas about descriptor tables
-/
set_option autoImplicit false

namespace Yash.Redir

open Syntax (Redir FileRedir)
open Spec (Sane spare)

variable {σ D : Type}

/-! ## The kernel -/

theorem set_eq (t : Fds D) (fd : Nat) (e : Option (Entry D)) : t.set fd e fd = e := by simp [Fds.set]

theorem set_ne (t : Fds D) (fd n : Nat) (e : Option (Entry D)) (h : n ≠ fd) : t.set fd e n = t n := by simp [Fds.set, h]

theorem lowest_some {limit min n : Nat} {t : Fds D} (h : lowest limit min t = some n) :
    n < limit ∧ min ≤ n ∧ t n = none := by
  unfold lowest at h
  have h1 := List.find?_some h
  have h2 := List.mem_of_find?_eq_some h
  simp only [Bool.and_eq_true, decide_eq_true_eq, Option.isNone_iff_eq_none] at h1
  exact ⟨List.mem_range.1 h2, h1.1, h1.2⟩

theorem lowest_none {limit min : Nat} {t : Fds D} (h : lowest limit min t = none) :
    ∀ n, n < limit → min ≤ n → t n ≠ none := by
  intro n hn hm ht
  unfold lowest at h
  have := List.find?_eq_none.1 h n (List.mem_range.2 hn)
  simp [hm, ht] at this

theorem xdup2_ok {limit old new : Nat} {t : Fds D} {e : Entry D} (ho : t old = some e) (hn : new < limit) (hne : old ≠ new) :
    xdup2 limit old new t = (t.set new (some { e with cloexec := false }), true) := by
  have h1 : (xclose new t) old = some e := by rw [xclose, set_ne _ _ _ _ hne, ho]
  unfold xdup2
  simp only [ne_eq, hne, not_false_eq_true, if_true, dup2, h1, Nat.not_le.2 hn, if_false]
  congr 1
  funext k
  simp only [xclose, Fds.set]
  split <;> rfl

theorem xdup2_closed {limit old new : Nat} {t : Fds D} (ho : t old = none) (hne : old ≠ new) :
    xdup2 limit old new t = (xclose new t, false) := by
  have h1 : (xclose new t) old = none := by rw [xclose, set_ne _ _ _ _ hne, ho]
  unfold xdup2
  simp only [ne_eq, hne, not_false_eq_true, if_true, dup2, h1]

theorem xdup2_beyond {limit old new : Nat} {t : Fds D} (hn : limit ≤ new) (hne : old ≠ new) :
    xdup2 limit old new t = (xclose new t, false) := by
  unfold xdup2
  simp only [ne_eq, hne, not_false_eq_true, if_true, dup2]
  cases xclose new t old <;> simp [hn]

/-! ## Shell descriptors -/

theorem nextMax_spec (setSize : Nat) (shell : Nat → Bool) (n : Nat) (hn : n ≤ setSize) :
    ∃ m, nextMax setSize shell n = some m ∧
      ((m = -1 ∧ ∀ k, k < n → shell k = false) ∨ ∃ j : Nat, m = j ∧ j < n ∧ shell j = true ∧ ∀ k, k < n → shell k = true → k ≤ j) := by
  induction n with
  | zero => exact ⟨-1, rfl, Or.inl ⟨rfl, by simp⟩⟩
  | succ n ih =>
    rw [nextMax, if_pos (by omega : n < setSize)]
    by_cases hs : shell n = true
    · rw [if_pos hs]
      exact ⟨n, rfl, Or.inr ⟨n, rfl, by omega, hs, fun k hk _ => by omega⟩⟩
    · rw [if_neg hs]
      obtain ⟨m, hm, h⟩ := ih (by omega)
      refine ⟨m, hm, ?_⟩
      have hlast : ∀ k, k < n + 1 → shell k = true → k < n := by
        intro k hk hsk
        rcases Nat.lt_or_ge k n with h | h
        · exact h
        · have : k = n := by omega
          subst this
          exact absurd hsk hs
      rcases h with ⟨h1, h2⟩ | ⟨j, h1, h2, h3, h4⟩
      · refine Or.inl ⟨h1, fun k hk => ?_⟩
        cases hsk : shell k with
        | false => rfl
        | true =>
          have := h2 k (hlast k hk hsk)
          rw [hsk] at this
          cases this
      · exact Or.inr ⟨j, h1, by omega, h3, fun k hk hsk => h4 k (hlast k hk hsk) hsk⟩

/-- `shellfdmax` is determined by `shellfds`. -/
def Top (shell : Nat → Bool) (m : Int) : Prop :=
  (m = -1 ∧ ∀ n, shell n = false) ∨ ∃ k : Nat, m = k ∧ shell k = true ∧ ∀ n, shell n = true → n ≤ k

theorem top_unique {shell : Nat → Bool} {m m' : Int} (h : Top shell m) (h' : Top shell m') : m = m' := by
  rcases h with ⟨h1, h2⟩ | ⟨k, h1, h2, h3⟩ <;> rcases h' with ⟨h1', h2'⟩ | ⟨k', h1', h2', h3'⟩
  · rw [h1, h1']
  · rw [h2 k'] at h2'
    cases h2'
  · rw [h2' k] at h2
    cases h2
  · have := h3 k' h2'
    have := h3' k h2
    omega

theorem removeShell_spec (E : Env σ D) (s : St D) (fd : Nat) (hlim : fd < E.setSize) (htop : Top s.shell s.max) :
    ∃ m, removeShell E fd s = some { s with shell := fun n => if n = fd then false else s.shell n, max := m } ∧
      Top (fun n => if n = fd then false else s.shell n) m := by
  unfold removeShell
  simp only [hlim, if_true]
  by_cases hmax : s.max = fd
  · rw [if_pos hmax]
    obtain ⟨m, hm, h⟩ := nextMax_spec E.setSize (fun n => if n = fd then false else s.shell n) fd (by omega)
    rw [hm]
    refine ⟨m, rfl, ?_⟩
    have hle : ∀ n, s.shell n = true → n ≤ fd := by
      rcases htop with ⟨h1, h2⟩ | ⟨k, h1, h2, h3⟩
      · rw [h1] at hmax
        omega
      · intro n hn
        have := h3 n hn
        omega
    rcases h with ⟨h1, h2⟩ | ⟨j, h1, h2, h3, h4⟩
    · refine Or.inl ⟨h1, fun n => ?_⟩
      by_cases hn : n = fd
      · simp [hn]
      · cases hsn : s.shell n with
        | false => simp [hsn]
        | true =>
          have := h2 n (by have := hle n hsn; omega)
          simpa [hn, hsn] using this
    · refine Or.inr ⟨j, h1, h3, fun n hn => ?_⟩
      have hne : n ≠ fd := by
        intro hc
        simp [hc] at hn
      have hsn : s.shell n = true := by simpa [hne] using hn
      exact h4 n (by have := hle n hsn; omega) hn
  · rw [if_neg hmax]
    refine ⟨s.max, rfl, ?_⟩
    rcases htop with ⟨h1, h2⟩ | ⟨k, h1, h2, h3⟩
    · exact Or.inl ⟨h1, fun n => by simp [h2 n]⟩
    · refine Or.inr ⟨k, h1, ?_, fun n hn => ?_⟩
      · have : k ≠ fd := by
          intro hc
          exact hmax (by rw [h1, hc])
        simp [this, h2]
      · by_cases hne : n = fd
        · simp [hne] at hn
        · exact h3 n (by simpa [hne] using hn)

theorem copyAsShell_cases (E : Env σ D) (fd : Nat) (s : St D) :
    (s.fds fd = none ∧ copyAsShell E fd s = .error .badf) ∨
    (s.fds fd ≠ none ∧ copyAsShell E fd s = .error .other ∧ spare E s = 0) ∨
    ∃ e c, s.fds fd = some e ∧ c < E.limit ∧ E.min ≤ c ∧ s.fds c = none ∧
      copyAsShell E fd s = .ok (c, addShell E c { s with fds := s.fds.set c (some { e with cloexec := true }) }) := by
  unfold copyAsShell
  cases h : s.fds fd with
  | none => exact Or.inl ⟨rfl, rfl⟩
  | some e =>
    right
    simp only
    by_cases hl : E.limit ≤ E.min
    · left
      rw [if_pos hl]
      refine ⟨by simp, rfl, ?_⟩
      unfold spare
      rw [List.length_eq_zero_iff, List.filter_eq_nil_iff]
      intro n hn
      have := List.mem_range.1 hn
      simp
      omega
    · rw [if_neg hl]
      cases hc : lowest E.limit E.min s.fds with
      | none =>
        left
        refine ⟨by simp, rfl, ?_⟩
        unfold spare
        rw [List.length_eq_zero_iff, List.filter_eq_nil_iff]
        intro n hn
        have h1 := lowest_none hc n (List.mem_range.1 hn)
        simp only [Bool.and_eq_true, decide_eq_true_eq, Option.isNone_iff_eq_none, not_and]
        exact h1
      | some c =>
        right
        obtain ⟨h1, h2, h3⟩ := lowest_some hc
        exact ⟨e, c, rfl, h1, h2, h3, rfl⟩

/-- The parts of the state that belong to the shell are the same. -/
structure SameShell (s s' : St D) : Prop where
  shell : s'.shell = s.shell
  max : s'.max = s.max
  fds : ∀ n, s.shell n = true → s'.fds n = s.fds n

theorem SameShell.refl (s : St D) : SameShell s s := ⟨rfl, rfl, fun _ _ => rfl⟩

theorem SameShell.trans {s s' s'' : St D} (h : SameShell s s') (h' : SameShell s' s'') : SameShell s s'' :=
  ⟨h'.shell.trans h.shell, h'.max.trans h.max, fun n hn => (h'.fds n (by rw [h.shell, hn])).trans (h.fds n hn)⟩

/-- Only the descriptors in a set change, none of which belongs to the shell. -/
structure Touch (E : Env σ D) (T : Nat → Prop) (s s' : St D) : Prop where
  shell : s'.shell = s.shell
  max : s'.max = s.max
  fds : ∀ n, ¬ T n → s'.fds n = s.fds n
  user : ∀ n, T n → s.shell n = false ∧ ∀ e, s'.fds n = some e → e.cloexec = false ∧ n < E.limit

theorem Touch.sameShell {E : Env σ D} {T : Nat → Prop} {s s' : St D} (h : Touch E T s s') : SameShell s s' where
  shell := h.shell
  max := h.max
  fds := by
    intro n hn
    apply h.fds
    intro ht
    have := (h.user n ht).1
    rw [hn] at this
    cases this

theorem Touch.sane {E : Env σ D} {T : Nat → Prop} [DecidablePred T] {s s' : St D} (h : Touch E T s s') (hs : Sane E s) : Sane E s' where
  bounded := by
    intro n hn
    by_cases ht : T n
    · cases he : s'.fds n with
      | none => exact absurd he hn
      | some e => exact ((h.user n ht).2 e he).2
    · rw [h.fds n ht] at hn
      exact hs.bounded n hn
  own := by
    intro n hn
    rw [h.shell] at hn
    obtain ⟨h1, e, h2, h3⟩ := hs.own n hn
    exact ⟨h1, e, by rw [h.sameShell.fds n hn, h2], h3⟩
  user := by
    intro n hn e he
    by_cases ht : T n
    · exact ((h.user n ht).2 e he).1
    · rw [h.fds n ht] at he
      exact hs.user n (by rw [← h.shell, hn]) e he
  top := by rw [h.shell, h.max]; exact hs.top

/-! ## Saving descriptors -/

/-- What `undo` does to any state with the same private descriptors. -/
def Undoable (E : Env σ D) (save : List Saved) (s0 s : St D) : Prop :=
  ∀ s2, SameShell s s2 → Sane E s2 → ∃ s3, undo E save s2 = some s3 ∧ s3.shell = s0.shell ∧ s3.max = s0.max ∧
    ∀ n, s3.fds n = if n ∈ save.map Saved.orig then s0.fds n else if s.shell n && !s0.shell n then none else s2.fds n

/-- What `clearSaved` does to any state with the same private descriptors. -/
def Clearable (E : Env σ D) (save : List Saved) (s0 s : St D) : Prop :=
  ∀ s2, SameShell s s2 → ∃ s3, clearSaved E save s2 = some s3 ∧ s3.shell = s0.shell ∧ s3.max = s0.max ∧
    ∀ n, s3.fds n = if s.shell n && !s0.shell n then none else s2.fds n

/-- The invariant of `openAll`. -/
structure Kept (E : Env σ D) (save : List Saved) (s0 s : St D) : Prop where
  sane : Sane E s
  undoable : Undoable E save s0 s
  clearable : Clearable E save s0 s
  /-- Descriptors that have not been saved are unchanged. -/
  frame : ∀ n, s.shell n = false → n ∉ save.map Saved.orig → s.fds n = s0.fds n
  /-- The shell has no fewer descriptors of its own than before, and these are unchanged. -/
  more : ∀ n, s0.shell n = true → s.shell n = true ∧ s.fds n = s0.fds n
  /-- The new ones were free. -/
  fresh : ∀ n, s.shell n = true → s0.shell n = false → n ∉ save.map Saved.orig → s0.fds n = none
  /-- Only the user's descriptors are saved. -/
  users : ∀ n, n ∈ save.map Saved.orig → s0.shell n = false

theorem Kept.start {E : Env σ D} {s : St D} (h : Sane E s) : Kept E [] s s where
  sane := h
  undoable := by
    intro s2 h1 _
    refine ⟨s2, rfl, h1.shell, h1.max, fun n => ?_⟩
    cases s.shell n <;> simp
  clearable := by
    intro s2 h1
    refine ⟨s2, rfl, h1.shell, h1.max, fun n => ?_⟩
    cases s.shell n <;> simp
  frame := fun _ _ _ => rfl
  more := fun _ hn => ⟨hn, rfl⟩
  fresh := fun n h1 h2 => by rw [h1] at h2; cases h2
  users := by simp

theorem Kept.touch {E : Env σ D} {save : List Saved} {s0 s s' : St D} {T : Nat → Prop} [DecidablePred T]
    (hk : Kept E save s0 s) (ht : Touch E T s s') (hT : ∀ n, T n → n ∈ save.map Saved.orig) : Kept E save s0 s' where
  sane := ht.sane hk.sane
  undoable := by
    intro s2 h1 h2
    obtain ⟨s3, h3, h4, h5, h6⟩ := hk.undoable s2 (ht.sameShell.trans h1) h2
    refine ⟨s3, h3, h4, h5, fun n => ?_⟩
    rw [h6 n, ht.shell]
  clearable := by
    intro s2 h1
    obtain ⟨s3, h3, h4, h5, h6⟩ := hk.clearable s2 (ht.sameShell.trans h1)
    refine ⟨s3, h3, h4, h5, fun n => ?_⟩
    rw [h6 n, ht.shell]
  frame := by
    intro n hn hm
    rw [ht.fds n fun h => hm (hT n h), hk.frame n (by rw [← ht.shell, hn]) hm]
  more := by
    intro n hn
    obtain ⟨h1, h2⟩ := hk.more n hn
    exact ⟨by rw [ht.shell, h1], by rw [ht.sameShell.fds n h1, h2]⟩
  fresh := by
    intro n hn
    rw [ht.shell] at hn
    exact hk.fresh n hn
  users := by
    exact hk.users

/-- What `save_fd` does in any case. -/
structure Saves (E : Env σ D) (fd : Nat) (s s' : St D) : Prop where
  sane : Sane E s'
  same : ∀ n, s'.shell n = false → s'.fds n = s.fds n
  mono : ∀ n, s.shell n = true → s'.shell n = true ∧ s'.fds n = s.fds n
  fresh : ∀ n, s'.shell n = true → s.shell n = false → s.fds n = none
  user : s'.shell fd = false
  one : ∃ L : List Nat, L.length ≤ 1 ∧ ∀ n, n ∉ L → s'.fds n = s.fds n

theorem copy_sane {E : Env σ D} {s : St D} {c : Nat} {e : Entry D} (h : Sane E s) (hcl : c < E.limit) (hcm : E.min ≤ c) :
    Sane E { s with fds := s.fds.set c (some { e with cloexec := true }),
                    shell := fun n => if n = c then true else s.shell n
                    max := if s.max < c then (c : Int) else s.max } where
  bounded := by
    intro n hn
    by_cases hc : n = c
    · rw [hc]; exact hcl
    · exact h.bounded n (by simpa only [set_ne _ _ _ _ hc] using hn)
  own := by
    intro n hn
    by_cases hc : n = c
    · subst hc
      exact ⟨hcm, _, set_eq _ _ _, rfl⟩
    · simp only [hc, if_false] at hn
      obtain ⟨h1, e', h2, h3⟩ := h.own n hn
      exact ⟨h1, e', by simp only [set_ne _ _ _ _ hc, h2], h3⟩
  user := by
    intro n hn e' he'
    by_cases hc : n = c
    · simp [hc] at hn
    · simp only [hc, if_false] at hn
      exact h.user n hn e' (by simpa only [set_ne _ _ _ _ hc] using he')
  top := by
    right
    rcases h.top with ⟨h1, h2⟩ | ⟨k, h1, h2, h3⟩
    · refine ⟨c, by simp only; rw [h1, if_pos (by omega)], by simp, fun n hn => ?_⟩
      by_cases hnc : n = c
      · omega
      · simp [hnc, h2] at hn
    · by_cases hlt : s.max < c
      · refine ⟨c, by simp only; rw [if_pos hlt], by simp, fun n hn => ?_⟩
        by_cases hnc : n = c
        · omega
        · have := h3 n (by simpa [hnc] using hn)
          omega
      · refine ⟨k, by simp only; rw [if_neg hlt, h1], by simp [h2], fun n hn => ?_⟩
        by_cases hnc : n = c
        · omega
        · exact h3 n (by simpa [hnc] using hn)

theorem saveFd_saves {E : Env σ D} (hset : E.limit ≤ E.setSize) {save save' : List Saved} {s s' : St D} {fd : Nat}
    (hs : Sane E s) (hu : s.shell fd = false) (h : saveFd E fd save s = (save', s')) : Saves E fd s s' := by
  have hsame : Saves E fd s s :=
    ⟨hs, fun _ _ => rfl, fun _ h => ⟨h, rfl⟩, fun n h h' => (by rw [h] at h'; cases h'), hu, [], by simp, fun _ _ => rfl⟩
  unfold saveFd at h
  rcases copyAsShell_cases E fd s with ⟨h1, h2⟩ | ⟨_, h2, h3⟩ | ⟨e, c, he, hcl, hcm, hc, h2⟩
  · rw [h2] at h
    cases h
    exact hsame
  · rw [h2] at h
    cases h
    exact hsame
  · rw [h2] at h
    have hset' : c < E.setSize := by omega
    simp only [addShell, hset', if_true, Prod.mk.injEq] at h
    obtain ⟨rfl, rfl⟩ := h
    have hne : fd ≠ c := by
      rintro rfl
      rw [hc] at he
      cases he
    refine ⟨copy_sane hs hcl hcm, ?_, ?_, ?_, by simp [hne, hu], [c], by simp, ?_⟩
    · intro n hn
      have : n ≠ c := by
        rintro rfl
        simp at hn
      exact set_ne _ _ _ _ this
    · intro n hn
      have : n ≠ c := by
        rintro rfl
        obtain ⟨_, e', h2, _⟩ := hs.own n hn
        rw [hc] at h2
        cases h2
      exact ⟨by simp [this, hn], set_ne _ _ _ _ this⟩
    · intro n hn hn'
      by_cases hnc : n = c
      · rw [hnc, hc]
      · simp [hnc, hn'] at hn
    · intro n hn
      exact set_ne _ _ _ _ (by simpa using hn)

theorem Kept.save {E : Env σ D} (hset : E.limit ≤ E.setSize) {save save' : List Saved} {s0 s s' : St D} {fd : Nat}
    (hk : Kept E save s0 s) (hu : s.shell fd = false) (hspare : spare E s ≠ 0) (h : saveFd E fd save s = (save', s')) :
    Kept E save' s0 s' ∧ ∀ n, n ∈ save'.map Saved.orig ↔ n = fd ∨ n ∈ save.map Saved.orig := by
  have hfd0 : s0.shell fd = false := by
    cases h0 : s0.shell fd with
    | false => rfl
    | true =>
      have := (hk.more fd h0).1
      rw [hu] at this
      cases this
  have hsv := saveFd_saves hset hk.sane hu h
  unfold saveFd at h
  rcases copyAsShell_cases E fd s with ⟨h1, h2⟩ | ⟨_, _, h3⟩ | ⟨e, c, he, hcl, hcm, hc, h2⟩
  · rw [h2] at h
    cases h
    refine ⟨⟨hk.sane, ?_, hk.clearable, ?_, hk.more, ?_, ?_⟩, by simp⟩
    · intro s2 hs2 hsane
      have htouch : Touch E (fun n => n = fd) s2 { s2 with fds := xclose fd s2.fds } := by
        refine ⟨rfl, rfl, fun n hn => set_ne _ _ _ _ hn, ?_⟩
        rintro n rfl
        refine ⟨by rw [hs2.shell, hu], ?_⟩
        intro e he
        simp only [xclose, set_eq] at he
        cases he
      obtain ⟨s3, h3, h4, h5, h6⟩ := hk.undoable _ (hs2.trans htouch.sameShell) (htouch.sane hsane)
      refine ⟨s3, h3, h4, h5, fun n => ?_⟩
      rw [h6 n]
      simp only [List.map_cons, List.mem_cons]
      by_cases hm : n ∈ save.map Saved.orig
      · simp [hm]
      · simp only [hm, or_false, if_false]
        by_cases hn : n = fd
        · subst hn
          simp only [hu, Bool.false_and, Bool.false_eq_true, if_false, if_true, xclose, set_eq]
          rw [← hk.frame n hu hm, h1]
        · simp only [hn, if_false, xclose, set_ne _ _ _ _ hn]
    · intro n hn hm
      simp only [List.map_cons, List.mem_cons, not_or] at hm
      exact hk.frame n hn hm.2
    · intro n hn hn' hm
      simp only [List.map_cons, List.mem_cons, not_or] at hm
      exact hk.fresh n hn hn' hm.2
    · intro n hn
      simp only [List.map_cons, List.mem_cons] at hn
      rcases hn with rfl | hn
      · exact hfd0
      · exact hk.users n hn
  · exact absurd h3 hspare
  · rw [h2] at h
    have hset' : c < E.setSize := by omega
    simp only [addShell, hset', if_true, Prod.mk.injEq] at h
    obtain ⟨rfl, rfl⟩ := h
    have hcs : s.shell c = false := by
      cases hs : s.shell c with
      | false => rfl
      | true =>
        obtain ⟨_, e', he', _⟩ := hk.sane.own c hs
        rw [hc] at he'
        cases he'
    have hne : fd ≠ c := by
      rintro rfl
      rw [hc] at he
      cases he
    have hc0 : s0.shell c = false := by
      cases h0 : s0.shell c with
      | false => rfl
      | true =>
        have := (hk.more c h0).1
        rw [hcs] at this
        cases this
    refine ⟨⟨hsv.sane, ?_, ?_, ?_, ?_, ?_, ?_⟩, by simp⟩
    · intro s2 hs2 hsane
      have hs2c : s2.fds c = some { e with cloexec := true } := by
        rw [hs2.fds c (by simp)]
        exact set_eq _ _ _
      have hfdl : fd < E.limit := hk.sane.bounded fd (by simp [he])
      obtain ⟨m, hm, htop⟩ := removeShell_spec E s2 c hset' hsane.top
      have hshell : (fun n => if n = c then false else s2.shell n) = s.shell := by
        funext n
        rw [hs2.shell]
        by_cases hn : n = c
        · simp [hn, hcs]
        · simp [hn]
      have hmax : m = s.max := by
        rw [hshell] at htop
        exact top_unique htop hk.sane.top
      have hce : e.cloexec = false := hk.sane.user fd hu e he
      simp only [undo, hm]
      rw [hshell, hmax, xdup2_ok hs2c hfdl (Ne.symm hne)]
      have hset2 : ∀ n, (xclose c (s2.fds.set fd (some { e with cloexec := false }))) n =
          if n = c then none else if n = fd then s.fds fd else s2.fds n := by
        intro n
        simp only [xclose, Fds.set]
        split
        · rfl
        · split
          · rw [he]
            cases e
            simp_all
          · rfl
      have hS1 : SameShell s { fds := xclose c (s2.fds.set fd (some { e with cloexec := false })), shell := s.shell, max := s.max } := by
        refine ⟨rfl, rfl, fun n hn => ?_⟩
        have h1 : n ≠ c := by
          rintro rfl
          rw [hcs] at hn
          cases hn
        have h2 : n ≠ fd := by
          rintro rfl
          rw [hu] at hn
          cases hn
        simp only [hset2, h1, h2, if_false]
        rw [hs2.fds n (by simp [h1, hn])]
        exact set_ne _ _ _ _ h1
      have hS2 : Sane E { fds := xclose c (s2.fds.set fd (some { e with cloexec := false })), shell := s.shell, max := s.max } := by
        refine ⟨?_, ?_, ?_, hk.sane.top⟩
        · intro n hn
          simp only [hset2] at hn
          by_cases h1 : n = c
          · simp [h1] at hn
          · by_cases h2 : n = fd
            · rw [h2]; exact hfdl
            · exact hsane.bounded n (by simpa [h1, h2] using hn)
        · intro n hn
          have hn : s.shell n = true := hn
          have h1 : n ≠ c := by
            rintro rfl
            rw [hcs] at hn
            cases hn
          have h2 : n ≠ fd := by
            rintro rfl
            rw [hu] at hn
            cases hn
          simp only [hset2, h1, h2, if_false]
          exact hsane.own n (by rw [hs2.shell]; simp [h1, hn])
        · intro n hn e' he'
          simp only [hset2] at he'
          by_cases h1 : n = c
          · simp [h1] at he'
          · by_cases h2 : n = fd
            · subst h2
              simp only [h1, if_true, if_false] at he'
              exact hk.sane.user n hu e' he'
            · simp only [h1, h2, if_false] at he'
              exact hsane.user n (by rw [hs2.shell]; simpa [h1] using hn) e' he'
      obtain ⟨s3, h3, h4, h5, h6⟩ := hk.undoable
        { fds := xclose c (s2.fds.set fd (some { e with cloexec := false })), shell := s.shell, max := s.max } hS1 hS2
      refine ⟨s3, h3, h4, h5, fun n => ?_⟩
      rw [h6 n]
      simp only [List.map_cons, List.mem_cons, hset2]
      by_cases hm : n ∈ save.map Saved.orig
      · simp [hm]
      · simp only [hm, or_false, if_false]
        by_cases hn : n = fd
        · subst hn
          simp [hne, hu, hk.frame n hu hm]
        · by_cases hnc : n = c
          · subst hnc
            simp [hn, hcs, hc0]
          · simp [hn, hnc]
    · intro s2 hs2
      have htop2 : Top s2.shell s2.max := by
        rw [hs2.shell, hs2.max]
        exact hsv.sane.top
      obtain ⟨m, hm, htop⟩ := removeShell_spec E s2 c hset' htop2
      have hshell : (fun n => if n = c then false else s2.shell n) = s.shell := by
        funext n
        rw [hs2.shell]
        by_cases hn : n = c
        · simp [hn, hcs]
        · simp [hn]
      have hmax : m = s.max := by
        rw [hshell] at htop
        exact top_unique htop hk.sane.top
      simp only [clearSaved, hm]
      rw [hshell, hmax]
      obtain ⟨s3, h3, h4, h5, h6⟩ := hk.clearable { fds := xclose c s2.fds, shell := s.shell, max := s.max } (by
        refine ⟨rfl, rfl, fun n hn => ?_⟩
        have h1 : n ≠ c := by
          rintro rfl
          rw [hcs] at hn
          cases hn
        simp only [xclose, set_ne _ _ _ _ h1]
        rw [hs2.fds n (by simp [h1, hn])]
        exact set_ne _ _ _ _ h1)
      refine ⟨s3, h3, h4, h5, fun n => ?_⟩
      rw [h6 n]
      by_cases hnc : n = c
      · subst hnc
        simp [hcs, hc0, xclose, set_eq]
      · simp [hnc, xclose, set_ne _ _ _ _ hnc]
    · intro n hn hm
      simp only [List.map_cons, List.mem_cons, not_or] at hm
      have h1 : n ≠ c := by
        rintro rfl
        simp at hn
      simp only [set_ne _ _ _ _ h1]
      exact hk.frame n (by simpa [h1] using hn) hm.2
    · intro n hn
      obtain ⟨h1, h2⟩ := hk.more n hn
      obtain ⟨h3, h4⟩ := hsv.mono n h1
      exact ⟨h3, h4.trans h2⟩
    · intro n hn hn' hm
      simp only [List.map_cons, List.mem_cons, not_or] at hm
      by_cases h1 : n = c
      · subst h1
        rw [← hk.frame n hcs hm.2, hc]
      · exact hk.fresh n (by simpa [h1] using hn) hn' hm.2
    · intro n hn
      simp only [List.map_cons, List.mem_cons] at hn
      rcases hn with rfl | hn
      · exact hfd0
      · exact hk.users n hn

/-! ## Counting -/

theorem countP_mem_le (l L : List Nat) (h : l.Nodup) : l.countP (fun n => decide (n ∈ L)) ≤ L.length := by
  induction L with
  | nil => simp
  | cons a L ih =>
    have h1 : ∀ l : List Nat, l.countP (fun n => decide (n ∈ a :: L)) ≤ l.count a + l.countP (fun n => decide (n ∈ L)) := by
      intro l
      induction l with
      | nil => simp
      | cons b l ih =>
        rw [List.countP_cons, List.countP_cons, List.count_cons]
        have h0 : (if decide (b ∈ a :: L) = true then 1 else 0) ≤ (if (b == a) = true then 1 else 0) + (if decide (b ∈ L) = true then 1 else 0) := by
          by_cases hb : b = a <;> by_cases hl : b ∈ L <;> simp [hb, hl]
        omega
    have h2 := h1 l
    have h3 := List.nodup_iff_count.1 h a
    simp only [List.length_cons]
    omega

theorem spare_le {E : Env σ D} {s s' : St D} (L : List Nat) (h : ∀ n, n ∉ L → s'.fds n = s.fds n) :
    spare E s ≤ spare E s' + L.length := by
  unfold spare
  rw [← List.countP_eq_length_filter, ← List.countP_eq_length_filter]
  have h1 : ∀ l : List Nat, l.countP (fun n => decide (E.min ≤ n) && (s.fds n).isNone) ≤
      l.countP (fun n => decide (E.min ≤ n) && (s'.fds n).isNone) + l.countP (fun n => decide (n ∈ L)) := by
    intro l
    induction l with
    | nil => simp
    | cons b l ih =>
      simp only [List.countP_cons]
      by_cases hb : b ∈ L
      · simp only [hb, decide_true, if_true]
        split <;> split <;> omega
      · rw [h b hb]
        omega
  have h2 := h1 (List.range E.limit)
  have h3 := countP_mem_le (List.range E.limit) L List.nodup_range
  omega

/-! ## Opening and moving -/

theorem obtain_spec {E : Env σ D} {d : Option D} {s s' : St D} {n : Nat} (h : obtain E d s = some (n, s')) :
    ∃ d0, d = some d0 ∧ n < E.limit ∧ s.fds n = none ∧ s' = { s with fds := s.fds.set n (some { desc := d0 }) } := by
  unfold obtain at h
  cases d with
  | none => cases h
  | some d0 =>
    simp only at h
    cases hl : lowest E.limit 0 s.fds with
    | none => rw [hl] at h; cases h
    | some k =>
      rw [hl] at h
      cases h
      obtain ⟨h1, _, h2⟩ := lowest_some hl
      exact ⟨d0, rfl, h1, h2, rfl⟩

theorem place_new {E : Env σ D} {s s' : St D} {t0 : Fds D} {n fd : Nat} {e : Entry D} {ok : Bool} (hn : n < E.limit)
    (h0 : t0 n = none) (he : e.cloexec = false) (hs : s.fds = t0.set n (some e)) (h : place E n fd false s = (s', ok)) :
    (fd < E.limit → ok = true) ∧ (ok = true → fd < E.limit ∧ s' = { s with fds := t0.set fd (some e) }) := by
  unfold place at h
  by_cases hne : n = fd
  · rw [if_pos hne] at h
    cases h
    refine ⟨fun _ => rfl, fun _ => ⟨by omega, ?_⟩⟩
    rw [← hne, ← hs]
  · rw [if_neg hne] at h
    by_cases hl : fd < E.limit
    · rw [xdup2_ok (e := e) (by rw [hs]; exact set_eq _ _ _) hl hne] at h
      cases h
      refine ⟨fun _ => rfl, fun _ => ⟨hl, ?_⟩⟩
      simp only [Bool.false_eq_true, if_false]
      congr 1
      funext k
      rw [hs]
      simp only [xclose, Fds.set]
      by_cases hk : k = n
      · subst hk
        simp [hne, h0]
      · by_cases hk2 : k = fd
        · subst hk2
          simp only [hk, if_false, if_true]
          cases e
          simp_all
        · simp [hk, hk2]
    · rw [xdup2_beyond (by omega) hne] at h
      cases h
      exact ⟨fun h => absurd h hl, fun h => by cases h⟩

theorem place_copy {E : Env σ D} {s s' : St D} {m fd : Nat} {ok : Bool} (h : place E m fd true s = (s', ok)) :
    (ok = true ∧ m = fd ∧ s' = s) ∨
    (ok = true ∧ m ≠ fd ∧ fd < E.limit ∧ ∃ e, s.fds m = some e ∧ s' = { s with fds := s.fds.set fd (some { e with cloexec := false }) }) ∨
    (ok = false ∧ s' = { s with fds := xclose fd s.fds }) := by
  unfold place at h
  by_cases hne : m = fd
  · rw [if_pos hne] at h
    cases h
    exact Or.inl ⟨rfl, hne, rfl⟩
  · rw [if_neg hne] at h
    right
    by_cases hl : fd < E.limit
    · cases hm : s.fds m with
      | none =>
        rw [xdup2_closed hm hne] at h
        cases h
        exact Or.inr ⟨rfl, rfl⟩
      | some e =>
        rw [xdup2_ok hm hl hne] at h
        cases h
        exact Or.inl ⟨rfl, hne, hl, e, rfl, rfl⟩
    · rw [xdup2_beyond (by omega) hne] at h
      cases h
      exact Or.inr ⟨rfl, rfl⟩

theorem install_spec {E : Env σ D} {d : Option D} {s s' : St D} {fd : Nat} {ok : Bool} (h : install E d fd s = (s', ok)) :
    (ok = true → ∃ d0, d = some d0 ∧ fd < E.limit ∧ s' = { s with fds := s.fds.set fd (some { desc := d0 }) }) ∧
    (ok = false → fd < E.limit → s' = s) := by
  unfold install at h
  cases ho : obtain E d s with
  | none =>
    rw [ho] at h
    cases h
    exact ⟨fun h => (by cases h), fun _ _ => rfl⟩
  | some p =>
    obtain ⟨n, s1⟩ := p
    rw [ho] at h
    obtain ⟨d0, hd, hn, h0, rfl⟩ := obtain_spec ho
    obtain ⟨h1, h2⟩ := place_new hn h0 rfl rfl h
    refine ⟨fun hok => ⟨d0, hd, h2 hok⟩, fun hok hl => ?_⟩
    rw [h1 hl] at hok
    cases hok

theorem execPipe_fds {E : Env σ D} {x x' : σ} {out inp : Nat} {num : List Char} {save save' : List Saved} {s s' : St D}
    {p : Option Nat} (hn : parseFd E num = some inp) (hne : out ≠ inp) (hsh : isShell E inp s = false)
    (h : execPipe E x out num save s = (x', p, save', s')) :
    ∃ sA dIn dOut, saveFd E inp save s = (save', sA) ∧ E.newPipe x = (x', dIn, dOut) ∧
      match p with
      | none => s' = sA ∨ s' = { sA with fds := xclose inp sA.fds }
      | some p => p ≠ inp ∧ p < E.limit ∧ inp < E.limit ∧ sA.fds p = none ∧
          s' = { sA with fds := (sA.fds.set inp (some { desc := dIn })).set p (some { desc := dOut }) } := by
  unfold execPipe at h
  simp only [hn, hne, if_false, hsh, Bool.false_eq_true] at h
  rcases hA : saveFd E inp save s with ⟨saveA, sA⟩
  rcases hp : E.newPipe x with ⟨x1, dIn, dOut⟩
  simp only [hA, hp] at h
  cases h1 : obtain E (some dIn) sA with
  | none =>
    rw [h1] at h
    cases h
    exact ⟨_, _, _, rfl, rfl, Or.inl rfl⟩
  | some q =>
    obtain ⟨pin, s1⟩ := q
    rw [h1] at h
    simp only at h
    obtain ⟨d0, hd, hpin, hpin0, rfl⟩ := obtain_spec h1
    cases hd
    cases h2 : obtain E (some dOut) { sA with fds := sA.fds.set pin (some { desc := dIn }) } with
    | none =>
      rw [h2] at h
      cases h
      exact ⟨_, _, _, rfl, rfl, Or.inl rfl⟩
    | some q =>
      obtain ⟨pout, s2⟩ := q
      rw [h2] at h
      simp only at h
      obtain ⟨d0, hd, hpout, hpout0, rfl⟩ := obtain_spec h2
      cases hd
      simp only at hpout0 h
      have hpo : pout ≠ pin := by
        rintro rfl
        rw [set_eq] at hpout0
        cases hpout0
      rw [set_ne _ _ _ _ hpo] at hpout0
      by_cases hpi : pout = inp
      · subst hpi
        simp only [if_true] at h
        cases h3 : lowest E.limit 0 ((sA.fds.set pin (some { desc := dIn })).set pout (some { desc := dOut })) with
        | none =>
          rw [h3] at h
          cases h
          refine ⟨_, _, _, rfl, rfl, Or.inl ?_⟩
          congr 1
          funext k
          simp only [xclose, Fds.set]
          split
          · simp_all
          · split <;> simp_all
        | some n =>
          obtain ⟨hn1, _, hn2⟩ := lowest_some h3
          have hnp : n ≠ pout := by
            rintro rfl
            rw [set_eq] at hn2
            cases hn2
          rw [set_ne _ _ _ _ hnp] at hn2
          have hnp' : n ≠ pin := by
            rintro rfl
            rw [set_eq] at hn2
            cases hn2
          rw [set_ne _ _ _ _ hnp'] at hn2
          rw [h3] at h
          simp only [ne_eq, Ne.symm hpo, not_false_eq_true, if_true] at h
          rw [xdup2_ok (e := { desc := dIn }) (by simp [xclose, Fds.set, Ne.symm hpo, Ne.symm hnp']) hpout (Ne.symm hpo)] at h
          cases h
          refine ⟨_, _, _, rfl, rfl, hnp, hn1, hpout, hn2, ?_⟩
          congr 1
          funext k
          simp only [xclose, Fds.set]
          by_cases hk1 : k = pin
          · subst hk1
            simp [Ne.symm hnp', Ne.symm hpo, hpin0]
          · by_cases hk2 : k = pout
            · subst hk2
              simp [hk1, Ne.symm hnp]
            · simp [hk1, hk2]
      · simp only [if_neg hpi] at h
        by_cases hii : pin = inp
        · subst hii
          simp only [ne_eq, not_true_eq_false, if_false] at h
          cases h
          exact ⟨_, _, _, rfl, rfl, hpi, hpout, hpin, hpout0, rfl⟩
        · simp only [ne_eq, hii, not_false_eq_true, if_true] at h
          by_cases hl : inp < E.limit
          · rw [xdup2_ok (e := { desc := dIn }) (by simp [Fds.set, Ne.symm hpo]) hl hii] at h
            cases h
            refine ⟨_, _, _, rfl, rfl, hpi, hpout, hl, hpout0, ?_⟩
            congr 1
            funext k
            simp only [xclose, Fds.set]
            by_cases hk1 : k = pin
            · subst hk1
              simp [Ne.symm hpo, hii, hpin0]
            · by_cases hk2 : k = inp
              · subst hk2
                simp [hk1, Ne.symm hpi]
              · simp [hk1, hk2]
          · rw [xdup2_beyond (by omega) hii] at h
            cases h
            refine ⟨_, _, _, rfl, rfl, Or.inr ?_⟩
            congr 1
            funext k
            simp only [xclose, Fds.set]
            by_cases hk1 : k = pin
            · subst hk1
              simp [hpin0, Ne.symm hpo]
            · by_cases hk2 : k = pout
              · subst hk2
                simp [hk1, hpout0]
              · simp [hk1, hk2]

/-! ## What the user sees -/

open Spec (view)

theorem Saves.view {E : Env σ D} {fd : Nat} {s s' : St D} (h : Saves E fd s s') : view s' = view s := by
  funext n
  unfold Spec.view
  cases h' : s'.shell n with
  | false =>
    have : s.shell n = false := by
      cases hs : s.shell n with
      | false => rfl
      | true => rw [(h.mono n hs).1] at h'; cases h'
    rw [this, h.same n h']
  | true =>
    cases hs : s.shell n with
    | true => rfl
    | false => simp [h.fresh n h' hs]

theorem Saves.unshell {E : Env σ D} {fd n : Nat} {s s' : St D} (h : Saves E fd s s') (hn : s'.shell n = false) : s.shell n = false := by
  cases hs : s.shell n with
  | false => rfl
  | true => rw [(h.mono n hs).1] at hn; cases hn

theorem touch_set {E : Env σ D} {s : St D} {fd : Nat} {e : Option (Entry D)} (hu : s.shell fd = false)
    (he : ∀ e0, e = some e0 → e0.cloexec = false ∧ fd < E.limit) :
    Touch E (fun n => n ∈ [fd]) s { s with fds := s.fds.set fd e } where
  shell := rfl
  max := rfl
  fds := fun n hn => set_ne _ _ _ _ (by simpa using hn)
  user := by
    intro n hn
    simp only [List.mem_singleton] at hn
    subst hn
    exact ⟨hu, fun e0 h0 => he e0 (by simpa only [set_eq] using h0)⟩

theorem view_set {s : St D} {fd : Nat} {e : Option (Entry D)} (hu : s.shell fd = false) :
    view { s with fds := s.fds.set fd e } = fun k => if k = fd then e.map Entry.desc else view s k := by
  funext k
  unfold Spec.view
  simp only [Fds.set]
  by_cases hk : k = fd
  · subst hk
    simp [hu]
  · simp [hk]

theorem parseFd_toInt {E : Env σ D} {num : List Char} {n : Nat} (h : parseFd E num = some n) : E.toInt num = some (n : Int) := by
  unfold parseFd at h
  cases num with
  | nil => cases h
  | cons c cs =>
    simp only at h
    split at h
    · split at h
      · cases h
      · next m hm =>
        split at h
        · cases h
        · cases h
          rw [hm]
          congr 1
          omega
    · cases h

theorem isShell_false {E : Env σ D} {s : St D} {fd : Nat} (h : isShell E fd s = false) : s.shell fd = false := by
  unfold isShell at h
  simp only [Bool.or_eq_false_iff] at h
  exact h.2

theorem checkDup_copy {E : Env σ D} {num : List Char} {isIn : Bool} {s : St D} {m : Nat} (h : checkDup E num isIn s = .copy m) :
    num ≠ ['-'] ∧ E.toInt num = some (m : Int) ∧ s.shell m = false := by
  unfold checkDup at h
  split at h
  · cases h
  · next hne =>
    refine ⟨hne, ?_⟩
    split at h
    · cases h
    · next fd hfd =>
      split at h
      · cases h
      · next hsh =>
        have : fd = m := by
          split at h
          · split at h
            · cases h
            · generalize (if isIn = true then E.readable _ else E.writable _) = b at h
              cases b
              · cases h
              · cases h; rfl
          · cases h; rfl
        subst this
        exact ⟨parseFd_toInt hfd, isShell_false (by simpa using hsh)⟩

theorem checkDup_close {E : Env σ D} {num : List Char} {isIn : Bool} {s : St D} (h : checkDup E num isIn s = .close) :
    num = ['-'] := by
  unfold checkDup at h
  split at h
  · assumption
  · split at h
    · cases h
    · split at h
      · cases h
      · split at h
        · split at h
          · cases h
          · generalize (if isIn = true then E.readable _ else E.writable _) = b at h
            cases b <;> cases h
        · cases h

/-! ## One redirection -/

/-- Some of the user's descriptors are saved, one after another. -/
inductive Chain (E : Env σ D) : List Saved → St D → List Nat → List Saved → St D → Prop
  | nil (save : List Saved) (s : St D) : Chain E save s [] save s
  | cons (save save1 save' : List Saved) (s s1 s' : St D) (fd : Nat) (fds : List Nat) :
    s.shell fd = false → saveFd E fd save s = (save1, s1) → Chain E save1 s1 fds save' s' → Chain E save s (fd :: fds) save' s'

theorem Chain.one {E : Env σ D} {save save' : List Saved} {s s' : St D} {fd : Nat} (hu : s.shell fd = false)
    (h : saveFd E fd save s = (save', s')) : Chain E save s [fd] save' s' :=
  .cons _ _ _ _ _ _ _ _ hu h (.nil _ _)

theorem Chain.two {E : Env σ D} {save save' save'' : List Saved} {s s' s'' : St D} {fd fd' : Nat} (hu : s.shell fd = false)
    (h : saveFd E fd save s = (save', s')) (hu' : s'.shell fd' = false) (h' : saveFd E fd' save' s' = (save'', s'')) :
    Chain E save s [fd, fd'] save'' s'' :=
  .cons _ _ _ _ _ _ _ _ hu h (.one hu' h')

theorem Chain.sane {E : Env σ D} (hset : E.limit ≤ E.setSize) {save save' : List Saved} {s s' : St D} {L : List Nat}
    (h : Chain E save s L save' s') (hs : Sane E s) : Sane E s' ∧ view s' = view s := by
  induction h with
  | nil => exact ⟨hs, rfl⟩
  | cons save save1 save' s s1 s' fd fds hu hsv _ ih =>
    have h1 := saveFd_saves hset hs hu hsv
    obtain ⟨h2, h3⟩ := ih h1.sane
    exact ⟨h2, h3.trans h1.view⟩

theorem Chain.kept {E : Env σ D} (hset : E.limit ≤ E.setSize) {save save' : List Saved} {s s' s0 : St D} {L : List Nat}
    (h : Chain E save s L save' s') (hk : Kept E save s0 s) (hspare : L.length ≤ spare E s) :
    Kept E save' s0 s' ∧ (∀ n, n ∈ save'.map Saved.orig ↔ n ∈ save.map Saved.orig ∨ n ∈ L) ∧
      ∃ K : List Nat, K.length ≤ L.length ∧ ∀ n, n ∉ K → s'.fds n = s.fds n := by
  induction h with
  | nil => exact ⟨hk, by simp, [], by simp, fun _ _ => rfl⟩
  | cons save save1 save' s s1 s' fd fds hu hsv _ ih =>
    simp only [List.length_cons] at hspare
    obtain ⟨hk1, hm⟩ := hk.save hset hu (by omega) hsv
    obtain ⟨K1, hK1, hK1'⟩ := (saveFd_saves hset hk.sane hu hsv).one
    have hsp := spare_le (E := E) K1 hK1'
    obtain ⟨h1, h2, K, hK, hK'⟩ := ih hk1 (by omega)
    refine ⟨h1, ?_, K1 ++ K, by simp; omega, ?_⟩
    · intro n
      rw [h2, hm, List.mem_cons]
      constructor
      · rintro ((h | h) | h) <;> simp [h]
      · rintro (h | h | h) <;> simp [h]
    · intro n hn
      simp only [List.mem_append, not_or] at hn
      rw [hK' n hn.2, hK1' n hn.1]

/-- What one redirection does. -/
def Step (E : Env σ D) (r : Redir) (x x' : σ) (save save' : List Saved) (s s' : St D) (ok : Bool) : Prop :=
  ∃ L sA, L.length ≤ 2 ∧ Chain E save s L save' sA ∧ Touch E (fun n => n ∈ L) sA s' ∧
    (ok = true → ∃ a, Spec.Means E x r a x' ∧ view s' = a.apply (view sA) ∧ ∀ n, n ∈ a.targets ↔ n ∈ L)

theorem touch_refl {E : Env σ D} {s : St D} {L : List Nat} (hs : Sane E s) (hL : ∀ n, n ∈ L → s.shell n = false) :
    Touch E (fun n => n ∈ L) s s :=
  ⟨rfl, rfl, fun _ _ => rfl, fun n hn => ⟨hL n hn, fun e he => ⟨hs.user n (hL n hn) e he, hs.bounded n (by simp [he])⟩⟩⟩

theorem install_touch {E : Env σ D} {d : Option D} {s s' : St D} {fd : Nat} {ok : Bool} (hs : Sane E s) (hu : s.shell fd = false)
    (hl : ok = true ∨ fd < E.limit) (h : install E d fd s = (s', ok)) :
    Touch E (fun n => n ∈ [fd]) s s' ∧ (ok = true → ∃ d0, d = some d0 ∧ view s' = (Spec.Act.opened fd d0).apply (view s)) := by
  obtain ⟨h1, h2⟩ := install_spec h
  cases ok with
  | false =>
    rw [h2 rfl (by simpa using hl)]
    exact ⟨touch_refl hs (by simpa using hu), fun h => by cases h⟩
  | true =>
    obtain ⟨d0, hd, hl, rfl⟩ := h1 rfl
    refine ⟨touch_set hu (by rintro e0 ⟨⟩; exact ⟨rfl, hl⟩), fun _ => ⟨d0, hd, ?_⟩⟩
    rw [view_set hu]
    rfl

theorem install_step {E : Env σ D} (hset : E.limit ≤ E.setSize) {r : Redir} {x x' : σ} {save save' : List Saved} {s sA s' : St D}
    {d : Option D} {fd : Nat} {ok : Bool} (hs : Sane E s) (hu : s.shell fd = false) (hl : ok = true ∨ fd < E.limit)
    (hsv : saveFd E fd save s = (save', sA)) (h : install E d fd sA = (s', ok))
    (hm : ∀ d0, d = some d0 → Spec.Means E x r (.opened fd d0) x') : Step E r x x' save save' s s' ok := by
  have h1 := saveFd_saves hset hs hu hsv
  obtain ⟨h2, h3⟩ := install_touch h1.sane h1.user hl h
  refine ⟨[fd], sA, by simp, .one hu hsv, h2, fun hok => ?_⟩
  obtain ⟨d0, hd, hv⟩ := h3 hok
  exact ⟨_, hm d0 hd, hv, by simp [Spec.Act.targets]⟩

theorem fail_step {E : Env σ D} (hset : E.limit ≤ E.setSize) {r : Redir} {x x' : σ} {save save' : List Saved} {s sA : St D}
    {fd : Nat} (hs : Sane E s) (hu : s.shell fd = false)
    (hsv : saveFd E fd save s = (save', sA)) : Step E r x x' save save' s sA false := by
  have h1 := saveFd_saves hset hs hu hsv
  exact ⟨[fd], sA, by simp, .one hu hsv, touch_refl h1.sane (by simpa using h1.user), fun h => by cases h⟩

theorem dup_step {E : Env σ D} (hset : E.limit ≤ E.setSize) {type : FileRedir} {w : Syntax.Word} {x x' : σ} {name : List Char}
    {save save' : List Saved} {s sA s' : St D} {fd m : Nat} {isIn : Bool} {ok : Bool} (ht : type = .dupin ∨ type = .dupout)
    (hs : Sane E s) (hu : s.shell fd = false) (hw : E.filename x w = (x', some name))
    (hsv : saveFd E fd save s = (save', sA)) (hc : checkDup E name isIn sA = .copy m) (h : place E m fd true sA = (s', ok)) :
    Step E (.file type fd w) x x' save save' s s' ok := by
  have h1 := saveFd_saves hset hs hu hsv
  obtain ⟨hc1, hc2, hc3⟩ := checkDup_copy hc
  have hm := Spec.Means.copy (E := E) x x' type fd m w name ht hw hc1 hc2
  rcases place_copy h with ⟨rfl, rfl, rfl⟩ | ⟨rfl, hne, hl, e, he, rfl⟩ | ⟨rfl, rfl⟩
  · refine ⟨[m], s', by simp, .one hu hsv, touch_refl h1.sane (by simpa using h1.user), fun _ => ⟨_, hm, ?_, by simp [Spec.Act.targets]⟩⟩
    funext k
    simp only [Spec.Act.apply]
    split
    · next hk => rw [hk]
    · rfl
  · refine ⟨[fd], sA, by simp, .one hu hsv, touch_set h1.user (by rintro e0 ⟨⟩; exact ⟨rfl, hl⟩), fun _ => ⟨_, hm, ?_, by simp [Spec.Act.targets]⟩⟩
    rw [view_set h1.user]
    funext k
    simp only [Spec.Act.apply, Option.map_some]
    split
    · simp [Spec.view, hc3, he]
    · rfl
  · exact ⟨[fd], sA, by simp, .one hu hsv, touch_set h1.user (by rintro e0 ⟨⟩), fun h => by cases h⟩

theorem pipe_step {E : Env σ D} (hset : E.limit ≤ E.setSize) {w : Syntax.Word} {x x1 x' : σ} {name : List Char}
    {save save1 save' : List Saved} {s s1 s2 : St D} {fd : Nat} {p : Option Nat}
    (hs : Sane E s) (hu : s.shell fd = false) (hmin : fd < E.min) (hw : E.filename x w = (x1, some name))
    (hsv : saveFd E fd save s = (save1, s1)) (h : execPipe E x1 fd name save1 s1 = (x', p, save', s2)) :
    (p = none → Step E (.file .pipe fd w) x x' save save' s s2 false) ∧
    ∀ q, p = some q → ∀ s' ok, (ok = true ∨ fd < E.limit) → place E q fd false s2 = (s', ok) →
      Step E (.file .pipe fd w) x x' save save' s s' ok := by
  have h1 := saveFd_saves hset hs hu hsv
  have hfail : execPipe E x1 fd name save1 s1 = (x1, none, save1, s1) →
      (p = none → Step E (.file .pipe fd w) x x' save save' s s2 false) ∧
      ∀ q, p = some q → ∀ s' ok, (ok = true ∨ fd < E.limit) → place E q fd false s2 = (s', ok) →
        Step E (.file .pipe fd w) x x' save save' s s' ok := fun hf => by
    rw [hf] at h
    cases h
    exact ⟨fun _ => fail_step (E := E) (r := .file .pipe fd w) (x := x) (x' := x1) hset hs hu hsv, fun q hq => by cases hq⟩
  cases hn : parseFd E name with
  | none => exact hfail (by simp [execPipe, hn])
  | some inp =>
    by_cases hne : fd = inp
    · exact hfail (by simp [execPipe, hn, hne])
    · cases hsh : isShell E inp s1 with
      | true => exact hfail (by simp [execPipe, hn, hne, hsh])
      | false =>
        have hu' := isShell_false hsh
        obtain ⟨sA, dIn, dOut, h2, h3, h4⟩ := execPipe_fds hn hne hsh h
        have h5 := saveFd_saves hset h1.sane hu' h2
        have hfdA : sA.shell fd = false := by
          cases hc : sA.shell fd with
          | false => rfl
          | true =>
            have := (h5.sane.own fd hc).1
            omega
        have hinA := h5.user
        have hchain := Chain.two hu hsv hu' h2
        have hboth : ∀ n, n ∈ [fd, inp] → sA.shell n = false := by
          intro n hn
          simp only [List.mem_cons, List.not_mem_nil, or_false] at hn
          rcases hn with rfl | rfl <;> assumption
        cases p with
        | none =>
          refine ⟨fun _ => ?_, fun q hq => by cases hq⟩
          rcases h4 with rfl | rfl
          · exact ⟨[fd, inp], s2, by simp, hchain, touch_refl h5.sane hboth, fun h => by cases h⟩
          · refine ⟨[fd, inp], sA, by simp, hchain, ⟨rfl, rfl, ?_, ?_⟩, fun h => by cases h⟩
            · intro n hn
              exact set_ne _ _ _ _ (by simp at hn; exact hn.2)
            · intro n hn
              refine ⟨hboth n hn, fun e he => ?_⟩
              simp only [xclose, Fds.set] at he
              split at he
              · cases he
              · exact ⟨h5.sane.user n (hboth n hn) e he, h5.sane.bounded n (by simp [he])⟩
        | some p =>
          refine ⟨fun h => (by cases h), ?_⟩
          rintro q ⟨⟩ s' ok hl hp
          obtain ⟨hpi, hpl, hil, hp0, rfl⟩ := h4
          obtain ⟨h6, h7⟩ := place_new (t0 := sA.fds.set inp (some { desc := dIn })) hpl
            (by rw [set_ne _ _ _ _ hpi, hp0]) rfl rfl hp
          have hok : ok = true := by
            rcases hl with h | h
            · exact h
            · exact h6 h
          subst hok
          obtain ⟨hfl, rfl⟩ := h7 rfl
          refine ⟨[fd, inp], sA, by simp, hchain, ⟨rfl, rfl, ?_, ?_⟩, fun _ => ⟨.piped fd inp dOut dIn, ?_, ?_, by simp [Spec.Act.targets]⟩⟩
          · intro n hn
            simp only [List.mem_cons, List.not_mem_nil, or_false, not_or] at hn
            simp only [set_ne _ _ _ _ hn.1, set_ne _ _ _ _ hn.2]
          · intro n hn
            refine ⟨hboth n hn, fun e he => ?_⟩
            simp only [List.mem_cons, List.not_mem_nil, or_false] at hn
            simp only [Fds.set] at he
            by_cases h8 : n = fd
            · simp only [h8, if_true] at he
              cases he
              exact ⟨rfl, by omega⟩
            · have h9 : n = inp := by simpa [h8] using hn
              simp only [h8, h9, if_true, if_false, Ne.symm hne] at he
              cases he
              exact ⟨rfl, by omega⟩
          · exact .pipe x x1 x' fd inp w name dIn dOut hw (parseFd_toInt hn) hne h3
          · funext k
            simp only [Spec.Act.apply, Spec.view, Fds.set]
            by_cases h8 : k = fd
            · subst h8
              simp [hfdA]
            · by_cases h9 : k = inp
              · subst h9
                simp [h8, hinA]
              · simp [h8, h9]

theorem openOne_step {E : Env σ D} (hset : E.limit ≤ E.setSize) {r : Redir} {x x' : σ} {save save' : List Saved} {s s' : St D}
    {ok : Bool} (hs : Sane E s) (hl : ok = true ∨ target r < E.limit) (hpipe : ∀ fd w, r = .file .pipe fd w → fd < E.min)
    (h : openOne E r x save s = (x', save', s', ok)) : Step E r x x' save save' s s' ok := by
  have hnone : ∀ x', Step E r x x' save save s s false :=
    fun x' => ⟨[], s, by simp, .nil _ _, touch_refl hs (by simp), fun h => by cases h⟩
  unfold openOne at h
  cases hsh : isShell E (target r) s with
  | true =>
    rw [hsh] at h
    cases h
    exact hnone _
  | false =>
    rw [hsh] at h
    simp only [Bool.false_eq_true, if_false] at h
    have hu := isShell_false hsh
    cases r with
    | file type fd w =>
      simp only [target] at hu hl
      simp only at h
      rcases hw : E.filename x w with ⟨x1, name⟩
      rw [hw] at h
      cases name with
      | none =>
        cases h
        exact hnone _
      | some name =>
        simp only at h
        rcases hsv : saveFd E fd save s with ⟨save1, s1⟩
        rw [hsv] at h
        simp only at h
        have hopen : type = .input ∨ type = .output ∨ type = .clobber ∨ type = .append ∨ type = .inout →
            (match E.openFile x1 type name with
              | (x, d) => match install E d fd s1 with | (s, ok) => (x, save1, s, ok)) = (x', save', s', ok) →
            Step E (.file type fd w) x x' save save' s s' ok := by
          intro ht h
          rcases ho : E.openFile x1 type name with ⟨x2, d⟩
          rw [ho] at h
          simp only at h
          rcases hi : install E d fd s1 with ⟨s2, ok2⟩
          rw [hi] at h
          cases h
          exact install_step hset hs hu hl hsv hi (by rintro d0 rfl; exact .file _ _ _ _ _ _ _ _ ht hw ho)
        have hdup : ∀ isIn, type = .dupin ∨ type = .dupout →
            (match checkDup E name isIn s1 with
              | .error => (x1, save1, s1, false)
              | .close => (x1, save1, { s1 with fds := xclose fd s1.fds }, true)
              | .copy m => match place E m fd true s1 with | (s, ok) => (x1, save1, s, ok)) = (x', save', s', ok) →
            Step E (.file type fd w) x x' save save' s s' ok := by
          intro isIn ht h
          cases hc : checkDup E name isIn s1 with
          | error =>
            rw [hc] at h
            cases h
            exact fail_step hset hs hu hsv
          | close =>
            rw [hc] at h
            cases h
            have h1 := saveFd_saves hset hs hu hsv
            have hn := checkDup_close hc
            subst hn
            refine ⟨[fd], s1, by simp, .one hu hsv, touch_set h1.user (by rintro e0 ⟨⟩), fun _ => ⟨_, .close _ _ _ _ _ ht hw, ?_, by simp [Spec.Act.targets]⟩⟩
            unfold xclose
            rw [view_set h1.user]
            rfl
          | copy m =>
            rw [hc] at h
            simp only at h
            rcases hp : place E m fd true s1 with ⟨s2, ok2⟩
            rw [hp] at h
            cases h
            exact dup_step hset ht hs hu hw hsv hc hp
        cases type with
        | input => exact hopen (by simp) h
        | output => exact hopen (by simp) h
        | clobber => exact hopen (by simp) h
        | append => exact hopen (by simp) h
        | inout => exact hopen (by simp) h
        | dupin => exact hdup _ (by simp) h
        | dupout => exact hdup _ (by simp) h
        | pipe =>
          simp only at h
          rcases he : execPipe E x1 fd name save1 s1 with ⟨x2, p, save2, s2⟩
          rw [he] at h
          obtain ⟨h1, h2⟩ := pipe_step hset hs hu (hpipe fd w rfl) hw hsv he
          cases p with
          | none =>
            cases h
            exact h1 rfl
          | some q =>
            simp only at h
            rcases hp : place E q fd false s2 with ⟨s3, ok3⟩
            rw [hp] at h
            cases h
            exact h2 q rfl _ _ hl hp
        | herestr =>
          simp only at h
          cases h
          exact install_step hset hs hu hl hsv rfl fun d0 hd => .herestr _ _ _ _ _ _ _ hw (Prod.ext rfl hd)
    | heredoc tabs fd delim content =>
      simp only [target] at hu hl
      simp only at h
      rcases hsv : saveFd E fd save s with ⟨save1, s1⟩
      rw [hsv] at h
      simp only at h
      cases h
      exact install_step hset hs hu hl hsv rfl fun d0 hd => .heredoc _ _ _ _ _ _ _ (Prod.ext rfl hd)
    | proc isIn fd c =>
      simp only [target] at hu hl
      simp only at h
      rcases hsv : saveFd E fd save s with ⟨save1, s1⟩
      rw [hsv] at h
      simp only at h
      cases h
      exact install_step hset hs hu hl hsv rfl fun d0 hd => .proc _ _ _ _ _ _ (Prod.ext rfl hd)

/-! ## All redirections -/

theorem openAll_effect {E : Env σ D} (hset : E.limit ≤ E.setSize) (rs : List Redir) :
    ∀ (x x' : σ) (save save' : List Saved) (s s' : St D), Sane E s →
      (∀ r, r ∈ rs → ∀ fd w, r = .file .pipe fd w → fd < E.min) →
      openAll E rs x save s = (x', save', s', true) →
      Sane E s' ∧ ∃ acts, Spec.MeansAll E x rs acts x' ∧ view s' = acts.foldl (fun t a => a.apply t) (view s) := by
  induction rs with
  | nil =>
    intro x x' save save' s s' hs _ h
    cases h
    exact ⟨hs, [], .nil _, rfl⟩
  | cons r rs ih =>
    intro x x' save save' s s' hs hp h
    rw [openAll] at h
    rcases ho : openOne E r x save s with ⟨x1, save1, s1, ok⟩
    rw [ho] at h
    cases ok with
    | false => cases h
    | true =>
      simp only at h
      obtain ⟨L, sA, _, hc, ht, hm⟩ := openOne_step hset hs (Or.inl rfl) (hp r (by simp)) ho
      obtain ⟨h1, h2⟩ := hc.sane hset hs
      obtain ⟨a, h3, h4, _⟩ := hm rfl
      obtain ⟨h5, acts, h6, h7⟩ := ih _ _ _ _ _ _ (ht.sane h1) (fun r hr => hp r (by simp [hr])) h
      exact ⟨h5, a :: acts, .cons _ _ _ _ _ _ _ h3 h6, by rw [h7, h4, h2]; rfl⟩

theorem openAll_kept {E : Env σ D} (hset : E.limit ≤ E.setSize) (s0 : St D) (rs : List Redir) :
    ∀ (x x' : σ) (save save' : List Saved) (s s' : St D) (ok : Bool), Kept E save s0 s →
      (∀ r, r ∈ rs → target r < E.limit) →
      (∀ r, r ∈ rs → ∀ fd w, r = .file .pipe fd w → fd < E.min) →
      4 * rs.length ≤ spare E s →
      openAll E rs x save s = (x', save', s', ok) → Kept E save' s0 s' ∧
        (ok = true → ∃ acts, Spec.MeansAll E x rs acts x' ∧ view s' = acts.foldl (fun t a => a.apply t) (view s) ∧
          ∀ n, n ∈ save'.map Saved.orig ↔ n ∈ save.map Saved.orig ∨ ∃ a, a ∈ acts ∧ n ∈ a.targets) := by
  induction rs with
  | nil =>
    intro x x' save save' s s' ok hk _ _ _ h
    cases h
    exact ⟨hk, fun _ => ⟨[], .nil _, rfl, by simp⟩⟩
  | cons r rs ih =>
    intro x x' save save' s s' ok hk hl hp hsp h
    rw [openAll] at h
    simp only [List.length_cons] at hsp
    rcases ho : openOne E r x save s with ⟨x1, save1, s1, ok1⟩
    rw [ho] at h
    obtain ⟨L, sA, hL, hc, ht, hm⟩ := openOne_step hset hk.sane (Or.inr (hl r (by simp))) (hp r (by simp)) ho
    obtain ⟨h1, h2, K, hK, hK'⟩ := hc.kept hset hk (by omega)
    have h3 := h1.touch ht fun n hn => (h2 n).2 (Or.inr hn)
    cases ok1 with
    | false =>
      cases h
      exact ⟨h3, fun h => by cases h⟩
    | true =>
      simp only at h
      obtain ⟨h4, h5⟩ := ih _ _ _ _ _ _ _ h3 (fun r hr => hl r (by simp [hr])) (fun r hr => hp r (by simp [hr])) (by
        have := spare_le (E := E) (s := s) (s' := s1) (K ++ L) (by
          intro n hn
          simp only [List.mem_append, not_or] at hn
          rw [ht.fds n hn.2, hK' n hn.1])
        simp only [List.length_append] at this
        omega) h
      refine ⟨h4, fun hok => ?_⟩
      obtain ⟨a, h6, h7, h8⟩ := hm rfl
      obtain ⟨acts, h9, h10, h11⟩ := h5 hok
      refine ⟨a :: acts, .cons _ _ _ _ _ _ _ h6 h9, ?_, fun n => ?_⟩
      · rw [h10, h7, (hc.sane hset hk.sane).2]
        rfl
      · rw [h11, h2, ← h8]
        simp only [List.mem_cons, exists_eq_or_imp, or_assoc]

/-- The state is as it was before. -/
theorem Kept.restore {E : Env σ D} {save : List Saved} {s0 s : St D} (h : Kept E save s0 s) : undo E save s = some s0 := by
  obtain ⟨s3, h1, h2, h3, h4⟩ := h.undoable s (.refl s) h.sane
  rw [h1]
  congr 1
  have hf : s3.fds = s0.fds := by
    funext n
    rw [h4 n]
    by_cases hn : n ∈ save.map Saved.orig
    · rw [if_pos hn]
    · rw [if_neg hn]
      cases hs : s.shell n with
      | false =>
        simp only [Bool.false_and, Bool.false_eq_true, if_false]
        exact h.frame n hs hn
      | true =>
        cases hs0 : s0.shell n with
        | false => simp [h.fresh n hs hs0 hn]
        | true => simp [(h.more n hs0).2]
  cases s3
  cases s0
  simp_all

end Yash.Redir
