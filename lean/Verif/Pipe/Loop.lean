import Verif.Pipe.Lemmas
/-!
# The loop that creates the processes of a pipeline
-/
set_option autoImplicit false

namespace Yash.Pipe

open Redir (Fds Entry lowest xclose xdup2 lowest_some lowest_none xdup2_ok)
open Spec (Connected Room Fresh)

variable {D : Type} (S : Sys D) (t0 : Fds D)

/-- The table with the end of a pipe from the previous command. -/
def one (i : Nat) (f : Option Nat) : Fds D :=
  fun n => if f = some n then some ⟨S.reader (i - 1), false⟩ else t0 n

/-- What is known before the command number `i`. -/
structure Pre (i : Nat) (pi : Info) (t : Fds D) : Prop where
  table : closeOpt pi.toOut (closeOpt pi.fromPrev t) = one S t0 i pi.toIn
  prev : ∀ f, pi.toIn = some f → 0 < i ∧ 2 ≤ f ∧ f < S.limit ∧ t0 f = none

/-- What is known when the command number `i` is about to be executed. -/
inductive Inv (i : Nat) : Info → Fds D → Prop
  | alone (f : Option Nat) : (∀ n, f = some n → 0 < i ∧ 2 ≤ n ∧ n < S.limit ∧ t0 n = none) →
      Inv i ⟨f, none, none⟩ (one S t0 i f)
  | next (f : Option Nat) (r w : Nat) :
      (∀ n, f = some n → 0 < i ∧ 2 ≤ n ∧ n < S.limit ∧ t0 n = none) →
      Opened S r w (one S t0 i f) → Inv i ⟨f, some r, some w⟩ (two S i r w (one S t0 i f))

theorem pigeon {L : List Nat} (h : L.Nodup) (K : List Nat) (hl : K.length < L.length) :
    ∃ n ∈ L, n ∉ K := by
  apply Classical.byContradiction
  intro hn
  have hsub : ∀ n ∈ L, n ∈ K := fun n hL => Classical.byContradiction fun hK => hn ⟨n, hL, hK⟩
  have := Redir.countP_mem_le L K h
  rw [List.countP_eq_length.mpr (fun a ha => by simpa using hsub a ha)] at this
  omega

variable {S t0}

theorem room_free {k : Nat} (h : Room S k t0) (K : List Nat) (hk : K.length < k) :
    ∃ n, n < S.limit ∧ t0 n = none ∧ n ∉ K := by
  obtain ⟨L, h1, h2, h3⟩ := h
  obtain ⟨n, hn, hK⟩ := pigeon h1 K (by omega)
  exact ⟨n, (h3 n hn).1, (h3 n hn).2, hK⟩

theorem nextPipe_inv {i : Nat} {pi : Info} {t : Fds D} (h : Pre S t0 i pi t) (next : Bool) :
    ∃ pi' t', nextPipe S i next pi t = (pi', t') ∧ Inv S t0 i pi' t' ∧ pi'.fromPrev = pi.toIn ∧
      (next = false → pi'.toIn = none) ∧ (S.pipeFails i = true → pi'.toIn = none) ∧
      (next = true → S.pipeFails i = false → Room S 5 t0 → pi'.toIn ≠ none) := by
  unfold nextPipe
  simp only [h.table]
  cases next with
  | false => exact ⟨_, _, rfl, .alone _ h.prev, rfl, fun _ => rfl, fun _ => rfl, by simp⟩
  | true =>
    simp only [if_true]
    cases hp : sysPipe S i (one S t0 i pi.toIn) with
    | none =>
      refine ⟨_, _, rfl, .alone _ h.prev, rfl, fun _ => rfl, fun _ => rfl, ?_⟩
      intro _ hf hroom
      exfalso
      unfold sysPipe at hp
      rw [hf] at hp
      simp only [Bool.false_eq_true, if_false] at hp
      split at hp
      · rename_i hl
        obtain ⟨n, hn, hnt, hK⟩ := room_free hroom [pi.toIn.getD 0] (by simp)
        refine lowest_none hl n hn (Nat.zero_le _) ?_
        simp only [one]
        rw [if_neg]
        · exact hnt
        · intro he
          simp [he] at hK
      · rename_i r hr
        split at hp
        · rename_i hl
          obtain ⟨n, hn, hnt, hK⟩ := room_free hroom [pi.toIn.getD 0, r] (by simp)
          refine lowest_none hl n hn (Nat.zero_le _) ?_
          simp only [one, Fds.set]
          simp only [List.mem_cons, List.not_mem_nil, or_false, not_or] at hK
          rw [if_neg hK.2, if_neg]
          · exact hnt
          · intro he
            simp [he] at hK
        · cases hp
    | some x =>
      obtain ⟨r, w, t'⟩ := x
      obtain ⟨hf, h1, h2, h3, h4, h5, rfl⟩ := sysPipe_spec hp
      simp only
      rcases moveEnds_spec (i := i) h1 h2 h3 h4 h5 with ⟨he, a, b, c, hfull⟩ | ⟨r', w', he, ho⟩
      · rw [he]
        refine ⟨_, _, rfl, .alone _ h.prev, rfl, fun _ => rfl, fun _ => rfl, ?_⟩
        intro _ _ hroom
        exfalso
        obtain ⟨n, hn, hnt, hK⟩ := room_free hroom [pi.toIn.getD 0, a, b, c] (by simp)
        simp only [List.mem_cons, List.not_mem_nil, or_false, not_or] at hK
        have := hfull n hn (by
          simp only [one]
          rw [if_neg]
          · exact hnt
          · intro he
            simp [he] at hK)
        rcases this with h | h | h
        · exact hK.2.1 h
        · exact hK.2.2.1 h
        · exact hK.2.2.2 h
      · rw [he]
        exact ⟨_, _, rfl, .next _ _ _ h.prev ho, rfl, by simp, by simp [hf], by simp⟩

theorem Inv.pre {i : Nat} {pi : Info} {t : Fds D} (h : Inv S t0 i pi t) : Pre S t0 (i + 1) pi t := by
  cases h with
  | alone f hf =>
    refine ⟨?_, by simp⟩
    funext n
    cases f with
    | none => simp [closeOpt, one]
    | some m =>
      simp only [closeOpt, one, xclose, Fds.set]
      have := hf m rfl
      grind
  | next f r w hf ho =>
    have hrt := ho.rt
    have hwt := ho.wt
    have hne := ho.ne
    refine ⟨?_, ?_⟩
    · funext n
      cases f with
      | none =>
        simp only [closeOpt, one, two, xclose, Fds.set, Nat.add_sub_cancel] at hrt hwt ⊢
        grind
      | some m =>
        simp only [closeOpt, one, two, xclose, Fds.set, Nat.add_sub_cancel] at hrt hwt ⊢
        have := hf m rfl
        grind
    · intro g hg
      simp only [Option.some.injEq] at hg
      subst hg
      refine ⟨by omega, ho.r2, ho.rl, ?_⟩
      simp only [one] at hrt
      split at hrt
      · cases hrt
      · exact hrt

theorem connect_spec {i : Nat} {pi : Info} {t : Fds D} (h : Inv S t0 i pi t) (n : Nat) :
    connectPipes S pi t n =
      if n = 0 ∧ pi.fromPrev.isSome then some ⟨S.reader (i - 1), false⟩
      else if n = 1 ∧ pi.toIn.isSome then some ⟨S.writer i, false⟩ else t0 n := by
  have first : ∀ (f : Nat) (t : Fds D), 2 ≤ f → f < S.limit → t f = some ⟨S.reader (i - 1), false⟩ →
      xdup2 S.limit f 0 t = (t.set 0 (some ⟨S.reader (i - 1), false⟩), true) := by
    intro f t h2 hl ht
    exact xdup2_ok ht (by omega) (by omega)
  have second : ∀ (f : Nat) (t : Fds D), 2 ≤ f → f < S.limit → t f = some ⟨S.writer i, false⟩ →
      xdup2 S.limit f 1 t = (t.set 1 (some ⟨S.writer i, false⟩), true) := by
    intro f t h2 hl ht
    exact xdup2_ok ht (by omega) (by omega)
  cases h with
  | alone f hf =>
    cases f with
    | none => simp [connectPipes, closeOpt, one]
    | some m =>
      obtain ⟨-, h2, hl, ht⟩ := hf m rfl
      simp only [connectPipes, closeOpt]
      rw [first m _ h2 hl (by simp [one])]
      simp only [xclose, Fds.set, one]
      grind
  | next f r w hf ho =>
    have hrt := ho.rt
    have hwt := ho.wt
    have hne := ho.ne
    have hr2 := ho.r2
    have hw2 := ho.w2
    cases f with
    | none =>
      simp only [connectPipes, closeOpt]
      rw [second w _ hw2 ho.wl (by simp [two])]
      simp only [xclose, Fds.set, one, two] at hrt hwt ⊢
      grind
    | some m =>
      obtain ⟨-, h2, hl, ht⟩ := hf m rfl
      have hmr : m ≠ r := by
        rintro rfl
        simp [one] at hrt
      have hmw : m ≠ w := by
        rintro rfl
        simp [one] at hwt
      simp only [connectPipes, closeOpt]
      rw [first m _ h2 hl (by simp [one, two, hmr, hmw])]
      simp only
      rw [second w _ hw2 ho.wl (by
        simp only [xclose, Fds.set, two]
        grind)]
      simp only [xclose, Fds.set, one, two] at hrt hwt ⊢
      grind

end Yash.Pipe
