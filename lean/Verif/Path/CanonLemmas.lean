import Verif.Path.Canon
import Verif.Path.CanonSpec
/-!
# Proofs about canonicalization
-/
set_option autoImplicit false

namespace Yash.Path

open Spec (Comp comps root render dot dotdot Step Steps Normal Simplified)

theorem comps_slash (p : List Char) : comps ('/' :: p) = comps p := by
  cases p <;> simp [comps]

theorem comps_other (c : Char) (p : List Char) (h : c ≠ '/') :
    comps (c :: p) = (c :: p.takeWhile (· != '/')) :: comps (p.dropWhile (· != '/')) := by
  induction p generalizing c with
  | nil => simp [comps, h]
  | cons d p ih =>
    by_cases hd : d = '/'
    · subst hd
      simp [comps, h]
    · have hb : (d != '/') = true := by simpa using hd
      rw [comps, if_neg h, if_neg hd, ih d hd]
      simp only [List.takeWhile, List.dropWhile, hb]

/-- A component as it occurs in a path. -/
def Good (x : Comp) : Prop := x ≠ [] ∧ '/' ∉ x

theorem mem_takeWhile (p : List Char) : '/' ∉ p.takeWhile (· != '/') := by
  induction p with
  | nil => intro h; cases h
  | cons c p ih =>
    by_cases h : c = '/'
    · subst h; intro h; cases h
    · have hb : (c != '/') = true := by simpa using h
      simp only [List.takeWhile, hb, List.mem_cons, not_or]
      exact ⟨fun h' => h h'.symm, ih⟩

theorem comps_good (p : List Char) : ∀ x ∈ comps p, Good x := by
  generalize hn : p.length = n
  induction n using Nat.strongRecOn generalizing p with
  | _ n ih =>
    cases p with
    | nil => intro x hx; cases hx
    | cons c p =>
      by_cases h : c = '/'
      · subst h
        rw [comps_slash]
        exact ih p.length (by rw [← hn, List.length_cons]; omega) p rfl
      · rw [comps_other c p h]
        intro x hx
        rw [List.mem_cons] at hx
        rcases hx with rfl | hx
        · refine ⟨by simp, ?_⟩
          rw [List.mem_cons]
          rintro (h' | h')
          · exact h h'.symm
          · exact mem_takeWhile p h'
        · have := dropWhile_le (· != '/') p
          exact ih _ (by rw [← hn, List.length_cons]; omega) _ rfl x hx

/-- The text of a stack of components, the last one first. -/
def rend (r : List Char) : List Comp → List Char
  | [] => r
  | [x] => r ++ x
  | x :: y :: st => rend r (y :: st) ++ '/' :: x

/-- The offsets of the components in the text. -/
def offs (r : List Char) : List Comp → List Nat
  | [] => []
  | x :: st => (rend r st).length :: offs r st

theorem rend_cons (r : List Char) (x : Comp) (st : List Comp) :
    rend r (x :: st) = (if (offs r st).isEmpty then rend r st else rend r st ++ ['/']) ++ x := by
  cases st with
  | nil => rfl
  | cons y st => simp [rend, offs]

theorem offs_isEmpty (r : List Char) (st : List Comp) : (offs r st).isEmpty = st.isEmpty := by
  cases st <;> rfl

theorem rend_take (r : List Char) (x : Comp) (st : List Comp) :
    (rend r (x :: st)).take (rend r st).length = rend r st := by
  rw [rend_cons]
  split
  · exact List.take_left
  · rw [List.append_assoc]; exact List.take_left

theorem rend_drop (r : List Char) (x : Comp) (st : List Comp) :
    (rend r (x :: st)).drop (rend r st).length = if st.isEmpty then x else '/' :: x := by
  rw [rend_cons, offs_isEmpty]
  split
  · exact List.drop_left
  · rw [List.append_assoc]; exact List.drop_left

theorem notDotdot_top (r : List Char) (x : Comp) (st : List Comp) (hx : Good x) :
    notDotdot ((rend r (x :: st)).drop (rend r st).length) = decide (x ≠ dotdot) := by
  have key : notDotdot x = decide (x ≠ dotdot) := by
    unfold notDotdot
    split
    · exact absurd (by simp) hx.2
    · by_cases h : x = ['.', '.'] <;> simp [dotdot, h]
  rw [rend_drop]
  split
  · exact key
  · unfold notDotdot
    by_cases h : x = ['.', '.'] <;> simp [dotdot, h]

/-- The loop on components. -/
def run (isDir : List Char → Bool) (r : List Char) : List Comp → List Comp → Option (List Comp)
  | st, [] => some st
  | st, c :: cs =>
    if c = dot then run isDir r st cs
    else
      match st with
      | [] => run isDir r [c] cs
      | x :: st' =>
        if c = dotdot ∧ x ≠ dotdot then
          if isDir (rend r (x :: st')) then run isDir r st' cs else none
        else run isDir r (c :: x :: st') cs

theorem run_dot (isDir : List Char → Bool) (r : List Char) (st cs : List Comp) :
    run isDir r st (dot :: cs) = run isDir r st cs := by
  cases st <;> simp [run]

def toCanon (r : List Char) : Option (List Comp) → Canon
  | some st => .ok (rend r st)
  | none => .notDir

theorem dropWhile_head (p : List Char) :
    p.dropWhile (· != '/') = [] ∨ (p.dropWhile (· != '/')).head? = some '/' := by
  induction p with
  | nil => exact Or.inl rfl
  | cons c p ih =>
    by_cases h : c = '/'
    · subst h; right; rfl
    · have hb : (c != '/') = true := by simpa using h
      simp only [List.dropWhile, hb]
      exact ih

theorem atDotdot_comp (c : Char) (p : List Char) :
    atDotdot (c :: p) = true ↔ c :: p.takeWhile (· != '/') = dotdot := by
  unfold atDotdot dotdot
  constructor
  · intro h
    split at h
    · rename_i h'; cases h'; rfl
    · rename_i h'; cases h'; rfl
    · cases h
  · intro h
    simp only [List.cons.injEq] at h
    obtain ⟨rfl, h⟩ := h
    cases p with
    | nil => cases h
    | cons d p =>
      by_cases hd : d = '/'
      · subst hd; cases h
      · have hb : (d != '/') = true := by simpa using hd
        simp only [List.takeWhile, hb, List.cons.injEq] at h
        obtain ⟨rfl, h⟩ := h
        cases p with
        | nil => rfl
        | cons e p =>
          by_cases he : e = '/'
          · subst he; rfl
          · have hb : (e != '/') = true := by simpa using he
            simp [List.takeWhile, hb] at h

theorem takeWhile_dropWhile_length (p : List Char) :
    (p.takeWhile (· != '/')).length + (p.dropWhile (· != '/')).length = p.length := by
  rw [← List.length_append, List.takeWhile_append_dropWhile]

theorem canonLoop_run (isDir : List Char → Bool) (r : List Char) (cap : Nat) (n : Nat) :
    ∀ (path : List Char) (st : List Comp), path.length = n → (∀ x ∈ st, Good x) →
      (rend r st).length + path.length ≤ cap →
      (st ≠ [] → path ≠ [] → path.head? ≠ some '/' → (rend r st).length + path.length < cap) →
      canonLoop isDir cap path (rend r st) (offs r st) = toCanon r (run isDir r st (comps path)) := by
  induction n using Nat.strongRecOn with
  | _ n ih =>
    intro path st hn hg hcap hroom
    cases path with
    | nil => rw [canonLoop]; rfl
    | cons c p =>
      rw [List.length_cons] at hn hcap hroom
      rw [canonLoop]
      by_cases hc : c = '/'
      · rw [if_pos hc]
        subst hc
        rw [comps_slash]
        exact ih p.length (by omega) p st rfl hg (by omega) (fun _ _ _ => by omega)
      · rw [if_neg hc, comps_other c p hc]
        have hlen := takeWhile_dropWhile_length p
        by_cases h1 : (c = '.' && p.isEmpty) = true
        · rw [if_pos h1]
          simp only [Bool.and_eq_true, decide_eq_true_eq, List.isEmpty_iff] at h1
          obtain ⟨rfl, rfl⟩ := h1
          rfl
        · rw [if_neg h1]
          by_cases h2 : (c = '.' && p.head? == some '/') = true
          · rw [if_pos h2]
            simp only [Bool.and_eq_true, decide_eq_true_eq, beq_iff_eq] at h2
            obtain ⟨rfl, h2⟩ := h2
            cases p with
            | nil => cases h2
            | cons d p =>
              simp only [List.head?_cons, Option.some.injEq] at h2
              subst h2
              simp only [List.length_cons] at hn hcap hroom
              have : comps (List.dropWhile (· != '/') ('/' :: p)) = comps p := by
                simp only [List.dropWhile]
                exact comps_slash p
              rw [this]
              simp only [List.drop_succ_cons, List.drop_zero, List.takeWhile]
              show _ = toCanon r (run isDir r st (['.'] :: comps p))
              rw [show run isDir r st (['.'] :: comps p) = run isDir r st (comps p) from
                run_dot isDir r st (comps p)]
              exact ih p.length (by omega) p st rfl hg (by omega) (fun _ _ _ => by omega)
          · rw [if_neg h2]
            have hnd : (c :: p.takeWhile (· != '/')) ≠ dot := by
              intro h
              simp only [dot, List.cons.injEq] at h
              obtain ⟨rfl, h⟩ := h
              cases p with
              | nil => exact h1 rfl
              | cons d p =>
                by_cases hd : d = '/'
                · subst hd; exact h2 rfl
                · have hb : (d != '/') = true := by simpa using hd
                  simp [List.takeWhile, hb] at h
            have hgood : Good (c :: p.takeWhile (· != '/')) :=
              comps_good (c :: p) _ (by rw [comps_other c p hc]; simp)
            have hother : (if ((if (offs r st).isEmpty then rend r st else rend r st ++ ['/']) ++
                  c :: p.takeWhile (· != '/')).length ≤ cap then
                canonLoop isDir cap (p.dropWhile (· != '/'))
                  ((if (offs r st).isEmpty then rend r st else rend r st ++ ['/']) ++
                    c :: p.takeWhile (· != '/')) ((rend r st).length :: offs r st)
              else .overflow) =
              toCanon r (run isDir r ((c :: p.takeWhile (· != '/')) :: st)
                (comps (p.dropWhile (· != '/')))) := by
              rw [← rend_cons]
              have hlen2 : (rend r ((c :: p.takeWhile (· != '/')) :: st)).length +
                  (p.dropWhile (· != '/')).length ≤ cap := by
                rw [rend_cons, offs_isEmpty]
                cases st with
                | nil =>
                  simp only [List.isEmpty_nil, if_true, List.length_append, List.length_cons] at hcap ⊢
                  omega
                | cons y st =>
                  have := hroom (by simp) (by simp) (by simpa using hc)
                  simp only [List.isEmpty_cons, Bool.false_eq_true, if_false, List.length_append,
                    List.length_cons, List.length_nil] at this ⊢
                  omega
              rw [if_pos (by omega)]
              refine ih (p.dropWhile (· != '/')).length (by omega) _ (_ :: st) rfl ?_ hlen2 ?_
              · intro x hx
                rw [List.mem_cons] at hx
                rcases hx with rfl | hx
                · exact hgood
                · exact hg x hx
              · intro _ h h'
                rcases dropWhile_head p with h'' | h''
                · exact absurd h'' h
                · exact absurd h'' h'
            dsimp only
            rw [hother]
            cases st with
            | nil =>
              rw [run, if_neg hnd]
              rfl
            | cons x st =>
              rw [run, if_neg hnd]
              dsimp only [offs]
              rw [notDotdot_top r x st (hg x (by simp))]
              by_cases hdd : c :: p.takeWhile (· != '/') = dotdot ∧ x ≠ dotdot
              · rw [if_pos hdd, if_pos (by simp [(atDotdot_comp c p).mpr hdd.1, hdd.2])]
                have hd' := hdd.1
                cases isDir (rend r (x :: st)) with
                | false => rfl
                | true =>
                  rw [if_pos rfl, if_pos rfl, rend_take]
                  have hdrop : comps (p.drop 1) = comps (p.dropWhile (· != '/')) ∧
                      ((p.drop 1) = [] ∨ (p.drop 1).head? = some '/') := by
                    simp only [dotdot, List.cons.injEq] at hd'
                    obtain ⟨rfl, hd'⟩ := hd'
                    cases p with
                    | nil => cases hd'
                    | cons d p =>
                      by_cases hd : d = '/'
                      · subst hd; cases hd'
                      · have hb : (d != '/') = true := by simpa using hd
                        simp only [List.takeWhile, List.dropWhile, hb, List.cons.injEq] at hd' ⊢
                        cases p with
                        | nil => exact ⟨rfl, Or.inl rfl⟩
                        | cons e p =>
                          by_cases he : e = '/'
                          · subst he; exact ⟨rfl, Or.inr rfl⟩
                          · have hb' : (e != '/') = true := by simpa using he
                            simp [List.takeWhile, hb'] at hd'
                  rw [← hdrop.1]
                  have hle : (rend r st).length ≤ (rend r (x :: st)).length := by
                    rw [← rend_take r x st]
                    simp only [List.length_take]
                    omega
                  have : (p.drop 1).length ≤ p.length := by simp
                  refine ih (p.drop 1).length (by omega) _ st rfl
                    (fun y hy => hg y (List.mem_cons_of_mem _ hy)) (by omega) ?_
                  intro _ h h'
                  rcases hdrop.2 with h'' | h''
                  · exact absurd h'' h
                  · exact absurd h'' h'
              · rw [if_neg hdd, if_neg]
                simp only [Bool.and_eq_true, decide_eq_true_eq]
                rintro ⟨h, h'⟩
                exact hdd ⟨(atDotdot_comp c p).mp h, h'⟩

end Yash.Path
