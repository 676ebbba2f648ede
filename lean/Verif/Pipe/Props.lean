import Verif.Pipe.Loop
/-!
# C71: Processes connected by pipes
-/
set_option autoImplicit false

namespace Yash.Pipe

open Redir (Fds Entry lowest xclose xdup2 lowest_some lowest_none xdup2_ok)
open Spec (Connected Room Fresh)

variable {D : Type} {S : Sys D} {t0 : Fds D}

theorem stdinToNull_spec (hl : 0 < S.limit) (jc : Bool) (t : Fds D) :
    ∃ c, stdinToNull S jc t = some c ∧ (∀ n, n ≠ 0 → c n = t n) ∧ (jc = true → c 0 = t 0) ∧
      (jc = false → c 0 = S.null.map (⟨·, false⟩)) := by
  unfold stdinToNull
  cases jc with
  | true => exact ⟨t, rfl, fun _ _ => rfl, fun _ => rfl, by simp⟩
  | false =>
    simp only [Bool.false_eq_true, if_false]
    have h0 : (xclose 0 t) 0 = none := by simp [xclose, Fds.set]
    have hne : ∀ n, n ≠ 0 → (xclose 0 t) n = t n := by
      intro n hn
      simp [xclose, Fds.set, hn]
    cases hnull : S.null with
    | none => exact ⟨_, rfl, hne, by simp, fun _ => h0⟩
    | some d =>
      simp only
      cases hlow : lowest S.limit 0 (xclose 0 t) with
      | none => exact absurd h0 (lowest_none hlow 0 hl (Nat.le_refl _))
      | some n =>
        have : n = 0 := by
          rcases Nat.eq_zero_or_pos n with h | h
          · exact h
          · exact absurd h0 (lowest_least hlow 0 h)
        subst this
        simp only [if_true]
        refine ⟨_, rfl, ?_, by simp, ?_⟩
        · intro n hn
          rw [Redir.set_ne _ _ _ _ hn, hne n hn]
        · intro _
          rw [Redir.set_eq]
          rfl

theorem child_connected (hl : 0 < S.limit) {i n : Nat} {pi : Info} {t : Fds D}
    (h : Inv S t0 i pi t) (async jc : Bool) (opened : Nat → Bool)
    (hprev : ∀ k, i = k + 1 → opened k = pi.fromPrev.isSome)
    (hnext : i + 1 < n → opened i = pi.toIn.isSome) (hlast : ¬ i + 1 < n → pi.toIn = none) :
    ∃ c, child S async jc pi t = some c ∧ Connected S async jc opened n i t0 c := by
  have hc := connect_spec h
  have hprev0 : pi.fromPrev.isSome = true → ∃ k, i = k + 1 := by
    intro hp
    have : 0 < i := by
      cases h with
      | alone f hf =>
        cases f with
        | none => cases hp
        | some m => exact (hf m rfl).1
      | next f r w hf _ =>
        cases f with
        | none => cases hp
        | some m => exact (hf m rfl).1
    exact ⟨i - 1, by omega⟩
  have out1 : i + 1 < n → opened i = true → connectPipes S pi t 1 = some ⟨S.writer i, false⟩ := by
    intro h1 h2
    rw [hc]
    rw [hnext h1] at h2
    simp [h2]
  have out2 : ¬ (i + 1 < n ∧ opened i = true) → connectPipes S pi t 1 = t0 1 := by
    intro h1
    rw [hc]
    have : pi.toIn.isSome = false := by
      by_cases hlt : i + 1 < n
      · cases ho : opened i with
        | true => exact absurd ⟨hlt, ho⟩ h1
        | false => rw [← hnext hlt, ho]
      · rw [hlast hlt]; rfl
    simp [this]
  have rest : ∀ fd, 2 ≤ fd → connectPipes S pi t fd = t0 fd := by
    intro fd hfd
    rw [hc, if_neg (by omega), if_neg (by omega)]
  unfold child
  by_cases ha : async = true ∧ pi.fromPrev = none
  · rw [if_pos ha]
    obtain ⟨c, hs, h1, h2, h3⟩ := stdinToNull_spec hl jc (connectPipes S pi t)
    refine ⟨c, hs, ?_, ?_, ?_, ?_, ?_, ?_⟩
    · intro k hk ho
      rw [hprev k hk, ha.2] at ho
      cases ho
    · rintro - (h | h)
      · rw [ha.1] at h; cases h
      · rw [h2 h, hc]
        simp [ha.2]
    · exact fun _ _ h => h3 h
    · intro h ho
      rw [h1 1 (by decide)]
      exact out1 h ho
    · intro h
      rw [h1 1 (by decide)]
      exact out2 h
    · intro fd hfd
      rw [h1 fd (by omega)]
      exact rest fd hfd
  · rw [if_neg ha]
    refine ⟨_, rfl, ?_, ?_, ?_, out1, out2, rest⟩
    · intro k hk ho
      rw [hprev k hk] at ho
      rw [hc]
      simp [ho, hk]
    · intro ho _
      rw [hc]
      have : pi.fromPrev.isSome = false := by
        cases hp : pi.fromPrev.isSome with
        | false => rfl
        | true =>
          obtain ⟨k, hk⟩ := hprev0 hp
          rw [← hprev k hk, ho k hk] at hp
          cases hp
      simp [this]
    · intro ho has _
      exfalso
      apply ha
      refine ⟨has, ?_⟩
      cases hp : pi.fromPrev with
      | none => rfl
      | some f =>
        obtain ⟨k, hk⟩ := hprev0 (by rw [hp]; rfl)
        have := hprev k hk
        rw [ho k hk, hp] at this
        cases this

theorem connected_congr {async jc : Bool} {opened opened' : Nat → Bool} {n i : Nat} {c : Fds D}
    (h : Connected S async jc opened n i t0 c) (he : ∀ k, i ≤ k + 1 → opened k = opened' k) :
    Connected S async jc opened' n i t0 c where
  input k hk ho := h.input k hk (by rw [he k (by omega)]; exact ho)
  own ho := h.own (fun k hk => by rw [he k (by omega)]; exact ho k hk)
  null ho := h.null (fun k hk => by rw [he k (by omega)]; exact ho k hk)
  output hi ho := h.output hi (by rw [he i (by omega)]; exact ho)
  last ho := h.last (by rw [he i (by omega)]; exact ho)
  rest := h.rest

theorem execLoop_spec (hl : 0 < S.limit) (async jc short : Bool) (n i : Nat) (pi : Info) (t : Fds D)
    (h : Pre S t0 i pi t) :
    ∃ opened : Nat → Bool,
      (∀ k, i = k + 1 → opened k = pi.toIn.isSome) ∧
      (∀ k, i ≤ k → S.pipeFails k = true → opened k = false) ∧
      (Room S 5 t0 → ∀ k, i ≤ k → k + 1 < i + n → S.pipeFails k = false → opened k = true) ∧
      (execLoop S async jc short n i pi t).1.length = n ∧
      (∀ (j : Nat) (p : Proc D), (execLoop S async jc short n i pi t).1[j]? = some p →
        (p = .notForked ∧ S.forkFails (i + j) = true ∧ ¬ (j + 1 = n ∧ short = true)) ∨
        (¬ (S.forkFails (i + j) = true ∧ ¬ (j + 1 = n ∧ short = true)) ∧
          ∃ c, p = .runs c ∧ Connected S async jc opened (i + n) (i + j) t0 c)) ∧
      (n ≠ 0 → (execLoop S async jc short n i pi t).2.1.toIn = none ∧
        (execLoop S async jc short n i pi t).2.1.toOut = none ∧
        closeOpt (execLoop S async jc short n i pi t).2.1.fromPrev
          (execLoop S async jc short n i pi t).2.2 = t0) := by
  induction n generalizing i pi t with
  | zero =>
    refine ⟨fun k => if i = k + 1 then pi.toIn.isSome else false, ?_, ?_, ?_, rfl, ?_, ?_⟩
    · intro k hk; simp [hk]
    · intro k hk _
      simp only
      rw [if_neg (by omega)]
    · intro _ k hk hk'; omega
    · intro j p hp; simp [execLoop] at hp
    · intro h; exact absurd rfl h
  | succ n ih =>
    obtain ⟨pi', t', hn, hinv, hfrom, hfalse, hfail, hroom⟩ := nextPipe_inv h (n != 0)
    obtain ⟨opened, o1, o2, o3, o4, o5, o6⟩ := ih (i + 1) pi' t' hinv.pre
    have e : execLoop S async jc short (n + 1) i pi t =
        ((if S.forkFails i ∧ ¬ (n = 0 ∧ short) then Proc.notForked
          else match child S async jc pi' t' with
            | some t => .runs t
            | none => .broken) :: (execLoop S async jc short n (i + 1) pi' t').1,
          (execLoop S async jc short n (i + 1) pi' t').2) := by
      simp only [execLoop, hn]
      rfl
    rw [e]
    let opened' : Nat → Bool := fun k => if i = k + 1 then pi.toIn.isSome else opened k
    have hop : ∀ k, i ≤ k → opened' k = opened k := by
      intro k hk
      simp only [opened']
      rw [if_neg (by omega)]
    refine ⟨opened', ?_, ?_, ?_, ?_, ?_, ?_⟩
    · intro k hk
      simp [opened', hk]
    · intro k hk hf
      rw [hop k hk]
      rcases Nat.lt_or_ge i k with hlt | hge
      · exact o2 k hlt hf
      · have : k = i := by omega
        subst this
        rw [o1 k rfl, hfail hf]
        rfl
    · intro hr k hk hkn hf
      rw [hop k hk]
      rcases Nat.lt_or_ge i k with hlt | hge
      · exact o3 hr k hlt (by omega) hf
      · have : k = i := by omega
        subst this
        rw [o1 k rfl]
        have := hroom (by simp; omega) hf hr
        cases ht : pi'.toIn with
        | none => exact absurd ht this
        | some f => rfl
    · simp only [List.length_cons, o4]
    · intro j p hp
      cases j with
      | zero =>
        simp only [List.getElem?_cons_zero, Option.some.injEq] at hp
        simp only [Nat.add_zero]
        by_cases hff : S.forkFails i = true ∧ ¬ (n = 0 ∧ short = true)
        · rw [if_pos hff] at hp
          refine Or.inl ⟨hp.symm, hff.1, ?_⟩
          intro hj
          exact hff.2 ⟨by omega, hj.2⟩
        · rw [if_neg hff] at hp
          refine Or.inr ⟨fun hj => hff ⟨hj.1, fun hh => hj.2 ⟨by omega, hh.2⟩⟩, ?_⟩
          obtain ⟨c, hc, hcon⟩ := child_connected (n := i + (n + 1)) hl hinv async jc opened'
            (by
              intro k hk
              simp only [opened', hk, if_true, hfrom])
            (by
              intro _
              rw [hop i (Nat.le_refl _), o1 i rfl])
            (by
              intro hlt
              exact hfalse (by simp; omega))
          rw [hc] at hp
          exact ⟨c, hp.symm, hcon⟩
      | succ j =>
        simp only [List.getElem?_cons_succ] at hp
        have e1 : i + 1 + j = i + (j + 1) := by omega
        have e2 : i + 1 + n = i + (n + 1) := by omega
        have := o5 j p hp
        rw [e1, e2] at this
        rcases this with ⟨h1, h2, h3⟩ | ⟨h1, c, h2, h3⟩
        · exact Or.inl ⟨h1, h2, fun hh => h3 ⟨by omega, hh.2⟩⟩
        · refine Or.inr ⟨fun hh => h1 ⟨hh.1, fun h => hh.2 ⟨by omega, h.2⟩⟩, c, h2, ?_⟩
          exact connected_congr h3 (fun k hk => (hop k (by omega)).symm)
    · intro _
      cases n with
      | succ n => exact o6 (by simp)
      | zero =>
        simp only [execLoop]
        have h1 := hfalse rfl
        cases hinv with
        | next => cases h1
        | alone f hf =>
          refine ⟨rfl, rfl, ?_⟩
          funext m
          cases f with
          | none => simp [closeOpt, one]
          | some g =>
            have := hf g rfl
            simp only [closeOpt, one, xclose, Fds.set]
            grind

/-- **C71.** In a pipeline, whatever calls fail and whatever descriptors the shell has open, every
command that is executed has the pipes from the previous and to the next command, if they could be
opened, as its standard input and output, and otherwise the same descriptors as the shell; the shell
has none of the pipes afterwards.  The pipes that can be opened are opened; five free descriptors are
enough. -/
theorem C71_pipeline (hl : 0 < S.limit) (async jc short : Bool) (n : Nat) (hn : n ≠ 0) :
    ∃ procs opened, pipeline S async jc short n t0 = some (procs, t0) ∧ procs.length = n ∧
      (∀ k, S.pipeFails k = true → opened k = false) ∧
      (Room S 5 t0 → ∀ k, k + 1 < n → S.pipeFails k = false → opened k = true) ∧
      ∀ (i : Nat) (p : Proc D), procs[i]? = some p →
        (p = .notForked ∧ S.forkFails i = true ∧ ¬ (i + 1 = n ∧ short = true)) ∨
        (¬ (S.forkFails i = true ∧ ¬ (i + 1 = n ∧ short = true)) ∧
          ∃ c, p = .runs c ∧ Connected S async jc opened n i t0 c) := by
  have hpre : Pre S t0 0 .init t0 := ⟨by funext n; simp [Info.init, closeOpt, one], by simp [Info.init]⟩
  obtain ⟨opened, -, o2, o3, o4, o5, o6⟩ := execLoop_spec hl async jc short n 0 .init t0 hpre
  obtain ⟨h1, h2, h3⟩ := o6 hn
  refine ⟨(execLoop S async jc short n 0 .init t0).1, opened, ?_, o4, fun k => o2 k (Nat.zero_le _), ?_, ?_⟩
  · unfold pipeline
    simp only [h1, h2, h3, and_self, if_true]
  · intro hr k hk
    exact o3 hr k (Nat.zero_le _) (by omega)
  · intro i p hp
    simpa using o5 i p hp

/-- **C71.** The writing end of the pipe from the command `k` to the next one is open only as the
standard output of the command `k`, and the reading end only as the standard input of the next one:
so the end of the input is seen when the command `k` has finished, and writing fails when the next
one has finished. -/
theorem C71_ends {async jc : Bool} {opened : Nat → Bool} {n i : Nat} {c : Fds D} (hf : Fresh S t0)
    (h : Connected S async jc opened n i t0 c) (k fd : Nat) (e : Entry D) (he : c fd = some e) :
    (e.desc = S.writer k ↔ fd = 1 ∧ i = k ∧ i + 1 < n ∧ opened k = true) ∧
    (e.desc = S.reader k ↔ fd = 0 ∧ i = k + 1 ∧ opened k = true) := by
  have own : ∀ {fd e}, t0 fd = some e → e.desc ≠ S.writer k ∧ e.desc ≠ S.reader k :=
    fun {fd e} h => ⟨(hf.new k fd e h).2, (hf.new k fd e h).1⟩
  match fd with
  | 0 =>
    by_cases hp : ∃ j, i = j + 1 ∧ opened j = true
    · obtain ⟨j, hj, hjo⟩ := hp
      rw [h.input j hj hjo] at he
      cases he
      refine ⟨⟨fun h => absurd h (hf.ends _ _), fun h => absurd h.1 (by decide)⟩, ?_, ?_⟩
      · intro h
        have := hf.readers _ _ h
        subst this
        exact ⟨rfl, hj, hjo⟩
      · rintro ⟨-, h, -⟩
        have : j = k := by omega
        rw [this]
    · have hno : ∀ j, i = j + 1 → opened j = false := by
        intro j hj
        cases ho : opened j with
        | false => rfl
        | true => exact absurd ⟨j, hj, ho⟩ hp
      have hne : e.desc ≠ S.writer k ∧ e.desc ≠ S.reader k := by
        by_cases hc : async = false ∨ jc = true
        · rw [h.own hno hc] at he
          exact own he
        · have h1 : async = true := by cases async <;> simp_all
          have h2 : jc = false := by cases jc <;> simp_all
          rw [h.null hno h1 h2] at he
          cases hd : S.null with
          | none => rw [hd] at he; cases he
          | some d =>
            rw [hd] at he
            cases he
            exact ⟨fun h => (hf.null k d hd).2 h.symm, fun h => (hf.null k d hd).1 h.symm⟩
      refine ⟨⟨fun h => absurd h hne.1, fun h => absurd h.1 (by decide)⟩, fun h => absurd h hne.2, ?_⟩
      rintro ⟨-, h, ho⟩
      rw [hno k h] at ho
      cases ho
  | 1 =>
    by_cases hp : i + 1 < n ∧ opened i = true
    · rw [h.output hp.1 hp.2] at he
      cases he
      refine ⟨⟨?_, ?_⟩, fun h => absurd h.symm (hf.ends _ _), fun h => absurd h.1 (by decide)⟩
      · intro h
        have := hf.writers _ _ h
        subst this
        exact ⟨rfl, rfl, hp⟩
      · rintro ⟨-, rfl, -⟩
        rfl
    · rw [h.last hp] at he
      refine ⟨⟨fun h => absurd h (own he).1, ?_⟩, fun h => absurd h (own he).2, fun h => absurd h.1 (by decide)⟩
      rintro ⟨-, rfl, h⟩
      exact absurd h hp
  | fd + 2 =>
    rw [h.rest (fd + 2) (by omega)] at he
    exact ⟨⟨fun h => absurd h (own he).1, fun h => absurd h.1 (by omega)⟩,
      fun h => absurd h (own he).2, fun h => absurd h.1 (by omega)⟩

theorem childEnd_spec {r w target : Nat} {t t' : Fds D} {d : D} (hne : r ≠ w) (hlim : target < S.limit)
    (hr : t r = none) (hw : t w = none)
    (ht' : t' w = some ⟨d, false⟩) (hrest : ∀ n, n ≠ r → n ≠ w → t' n = t n) :
    ∃ c, childEnd S r w target t' = some c ∧ c target = some ⟨d, false⟩ ∧
      ∀ n, n ≠ target → c n = t n := by
  unfold childEnd
  have hw' : xclose r t' w = some ⟨d, false⟩ := by
    simp [xclose, Fds.set, hne.symm, ht']
  by_cases h : w = target
  · subst h
    refine ⟨xclose r t', by simp, hw', ?_⟩
    intro n hn
    by_cases hnr : n = r
    · subst hnr
      rw [hr, xclose, Redir.set_eq]
    · rw [xclose, Redir.set_ne _ _ _ _ hnr, hrest n hnr hn]
  · simp only [ne_eq, h, not_false_eq_true, if_true, xdup2_ok hw' hlim h]
    refine ⟨_, rfl, ?_, ?_⟩
    · rw [xclose, Redir.set_ne _ _ _ _ (Ne.symm h), Redir.set_eq]
    · intro n hn
      by_cases hnw : n = w
      · subst hnw
        rw [hw, xclose, Redir.set_eq]
      · rw [xclose, Redir.set_ne _ _ _ _ hnw, Redir.set_ne _ _ _ _ hn]
        by_cases hnr : n = r
        · subst hnr
          rw [hr, xclose, Redir.set_eq]
        · rw [xclose, Redir.set_ne _ _ _ _ hnr, hrest n hnr hnw]

/-- **C71.** For a command substitution and `<(…)`: if the commands cannot be executed, the shell has
the same descriptors as before.  Otherwise the commands have a pipe as their standard output and for
the rest the same descriptors as the shell, and the shell has the reading end of the pipe, but not the
writing end, as a descriptor that was not open. -/
theorem C71_read (hl : 2 ≤ S.limit) :
    readFrom S t0 = .failed t0 ∨
    ∃ s fd c, readFrom S t0 = .forked s fd (some c) ∧
      c 1 = some ⟨S.writer 0, false⟩ ∧ (∀ n, n ≠ 1 → c n = t0 n) ∧
      t0 fd = none ∧ s fd = some ⟨S.reader 0, false⟩ ∧ ∀ n, n ≠ fd → s n = t0 n := by
  unfold readFrom
  cases hp : sysPipe S 0 t0 with
  | none => exact Or.inl rfl
  | some x =>
    obtain ⟨r, w, t'⟩ := x
    obtain ⟨-, h1, h2, h3, h4, -, rfl⟩ := sysPipe_spec hp
    simp only
    split
    · left
      congr 1
      funext n
      simp only [xclose, Fds.set, two]
      grind
    · right
      obtain ⟨c, hc, hc1, hc2⟩ := childEnd_spec (S := S) (target := 1) (t := t0) (t' := two S 0 r w t0)
        (d := S.writer 0) (Nat.ne_of_lt h1) (by omega) h3 h4 (by simp [two])
        (by intro n hr hw; simp [two, hr, hw])
      refine ⟨xclose w (two S 0 r w t0), r, c, by rw [hc], hc1, hc2, h3, ?_, ?_⟩
      · simp only [xclose, Fds.set, two]
        grind
      · intro n hn
        simp only [xclose, Fds.set, two]
        grind

/-- **C71.** The same for `>(…)`, with the ends exchanged. -/
theorem C71_write (hl : 1 ≤ S.limit) :
    writeTo S t0 = .failed t0 ∨
    ∃ s fd c, writeTo S t0 = .forked s fd (some c) ∧
      c 0 = some ⟨S.reader 0, false⟩ ∧ (∀ n, n ≠ 0 → c n = t0 n) ∧
      t0 fd = none ∧ s fd = some ⟨S.writer 0, false⟩ ∧ ∀ n, n ≠ fd → s n = t0 n := by
  unfold writeTo
  cases hp : sysPipe S 0 t0 with
  | none => exact Or.inl rfl
  | some x =>
    obtain ⟨r, w, t'⟩ := x
    obtain ⟨-, h1, h2, h3, h4, -, rfl⟩ := sysPipe_spec hp
    simp only
    split
    · left
      congr 1
      funext n
      simp only [xclose, Fds.set, two]
      grind
    · right
      obtain ⟨c, hc, hc1, hc2⟩ := childEnd_spec (S := S) (target := 0) (t := t0) (t' := two S 0 r w t0)
        (d := S.reader 0) (Nat.ne_of_gt h1) (by omega) h4 h3 (by simp [two]; omega)
        (by intro n hw hr; simp [two, hr, hw])
      refine ⟨xclose r (two S 0 r w t0), w, c, by rw [hc], hc1, hc2, h4, ?_, ?_⟩
      · simp only [xclose, Fds.set, two]
        grind
      · intro n hn
        simp only [xclose, Fds.set, two]
        grind

/-- **C71.** The commands are executed if nothing fails and two descriptors are free. -/
theorem C71_executed (hp : S.pipeFails 0 = false) (hf : S.forkFails 0 = false) (hr : Room S 2 t0) :
    (∃ s fd c, readFrom S t0 = .forked s fd c) ∧ ∃ s fd c, writeTo S t0 = .forked s fd c := by
  have : ∃ x, sysPipe S 0 t0 = some x := by
    unfold sysPipe
    rw [hp]
    simp only [Bool.false_eq_true, if_false]
    split
    · rename_i h
      obtain ⟨n, h1, h2, -⟩ := room_free hr [] (by simp)
      exact absurd h2 (lowest_none h n h1 (Nat.zero_le _))
    · rename_i r _
      split
      · rename_i h
        obtain ⟨n, h1, h2, h3⟩ := room_free hr [r] (by simp)
        refine absurd ?_ (lowest_none h n h1 (Nat.zero_le _))
        rw [Redir.set_ne _ _ _ _ (by simpa using h3), h2]
      · exact ⟨_, rfl⟩
  obtain ⟨⟨r, w, t'⟩, hx⟩ := this
  unfold readFrom writeTo
  rw [hx]
  simp [hf]

/-! ## The hypotheses can be met -/

/-- A system in which nothing fails.  Descriptions are numbers. -/
def exampleSys : Sys Nat where
  limit := 8
  reader i := 2 * i + 100
  writer i := 2 * i + 101
  pipeFails _ := false
  forkFails _ := false
  null := some 50

/-- The standard output is closed; the standard input and the standard error are open. -/
def exampleFds : Fds Nat := fun n => if n = 0 then some ⟨0, false⟩ else if n = 2 then some ⟨2, false⟩ else none

theorem room_example : Room exampleSys 5 exampleFds :=
  ⟨[3, 4, 5, 6, 7], by decide, rfl, by decide⟩

theorem fresh_example : Fresh exampleSys exampleFds where
  readers i j h := by simp only [exampleSys] at h; omega
  writers i j h := by simp only [exampleSys] at h; omega
  ends i j h := by simp only [exampleSys] at h; omega
  null i d h := by
    simp only [exampleSys, Option.some.injEq] at h ⊢
    omega
  new i fd e h := by
    simp only [exampleFds, exampleSys] at h ⊢
    split at h
    · cases h; simp
    · split at h
      · cases h; simp
      · cases h

/-- The second of three commands reads from the first pipe and writes to the second one. -/
example : ∃ procs c, pipeline exampleSys false false false 3 exampleFds = some (procs, exampleFds) ∧
    procs[1]? = some (.runs c) ∧ c 0 = some ⟨100, false⟩ ∧ c 1 = some ⟨103, false⟩ ∧
    c 2 = some ⟨2, false⟩ ∧ c 3 = none := by
  obtain ⟨procs, opened, h1, h2, -, h3, h4⟩ := C71_pipeline (S := exampleSys) (t0 := exampleFds)
    (by decide) false false false 3 (by decide)
  obtain ⟨p, hp⟩ : ∃ p, procs[1]? = some p := ⟨procs[1]'(by omega), List.getElem?_eq_getElem (by omega)⟩
  have ho := h3 room_example
  rcases h4 1 p hp with ⟨-, hf, -⟩ | ⟨-, c, hc, hcon⟩
  · cases hf
  · rw [hc] at hp
    exact ⟨procs, c, h1, hp, hcon.input 0 rfl (ho 0 (by decide) rfl),
      hcon.output (by decide) (ho 1 (by decide) rfl), hcon.rest 2 (by decide), hcon.rest 3 (by decide)⟩

end Yash.Pipe
