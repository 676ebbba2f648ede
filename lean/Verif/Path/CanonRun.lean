import Verif.Path.CanonLemmas
/-!
# The reduction of components
-/
set_option autoImplicit false

namespace Yash.Path

open Spec (Comp comps root render dot dotdot Step Steps Normal Simplified FileSystem follow Denotes
  NoLinks)

theorem leading_root (p : List Char) : (leading p).1 = root p ∧ comps (leading p).2 = comps p ∧
    (leading p).1.length + (leading p).2.length ≤ p.length := by
  unfold leading root
  split
  · exact ⟨rfl, by simp only [comps_slash], by simp only [List.length_cons, List.length_nil]; omega⟩
  · rename_i p h
    refine ⟨?_, by simp only [comps_slash], by simp only [List.length_cons, List.length_nil]; omega⟩
    split
    · rename_i h'; simp only [List.cons.injEq, true_and] at h'; exact absurd h' (h _)
    · rfl
    · rename_i h1 h2; simp only [List.cons.injEq, true_and] at h2; exact absurd h2.symm (h1 _)
    · rename_i h1 h2 h3; exact absurd rfl (h2 _)
  · rename_i p h1 h2
    refine ⟨?_, by simp only [comps_slash], by simp only [List.length_cons, List.length_nil]; omega⟩
    split
    · rename_i h'; simp only [List.cons.injEq, true_and] at h'; exact absurd h' (h1 _)
    · rename_i h'; simp only [List.cons.injEq, true_and] at h'; exact absurd h' (h2 _)
    · rfl
    · rename_i h1 h2 h3; exact absurd rfl (h3 _)
  · rename_i h1 h2 h3
    refine ⟨?_, rfl, by simp⟩
    split
    · exact absurd rfl (h1 _)
    · exact absurd rfl (h2 _)
    · exact absurd rfl (h3 _)
    · rfl

theorem canonicalize_run (isDir : List Char → Bool) (p : List Char) :
    canonicalize isDir p = toCanon (root p) (run isDir (root p) [] (comps p)) := by
  obtain ⟨h1, h2, h3⟩ := leading_root p
  unfold canonicalize
  rw [← h2, ← h1]
  exact canonLoop_run isDir (leading p).1 p.length _ (leading p).2 [] rfl (fun _ h => (by cases h)) h3
    (fun h => absurd rfl h)

/-- The reduction without checks. -/
def red : List Comp → List Comp → List Comp
  | st, [] => st
  | st, c :: cs =>
    if c = dot then red st cs
    else
      match st with
      | [] => red [c] cs
      | x :: st' => if c = dotdot ∧ x ≠ dotdot then red st' cs else red (c :: x :: st') cs

theorem run_red (isDir : List Char → Bool) (r : List Char) (st cs out : List Comp)
    (h : run isDir r st cs = some out) : out = red st cs := by
  induction cs generalizing st with
  | nil => simp only [run, Option.some.injEq] at h; exact h.symm
  | cons c cs ih =>
    cases st with
    | nil =>
      rw [run] at h; rw [red]
      split at h
      · rw [if_pos (by assumption)]; exact ih _ h
      · rw [if_neg (by assumption)]; exact ih _ h
    | cons x st =>
      rw [run] at h; rw [red]
      split at h
      · rw [if_pos (by assumption)]; exact ih _ h
      · rw [if_neg (by assumption)]
        split at h
        · rw [if_pos (by assumption)]
          split at h
          · exact ih _ h
          · cases h
        · rw [if_neg (by assumption)]; exact ih _ h

theorem red_append (st a b : List Comp) : red st (a ++ b) = red (red st a) b := by
  induction a generalizing st with
  | nil => rfl
  | cons c a ih =>
    cases st with
    | nil =>
      rw [List.cons_append, red, red]
      split <;> exact ih _
    | cons x st =>
      rw [List.cons_append, red, red]
      split
      · exact ih _
      · split <;> exact ih _

theorem run_append (isDir : List Char → Bool) (r : List Char) (st a b : List Comp) :
    run isDir r st (a ++ b) = (run isDir r st a).bind fun st' => run isDir r st' b := by
  induction a generalizing st with
  | nil => rfl
  | cons c a ih =>
    cases st with
    | nil =>
      rw [List.cons_append, run, run]
      split <;> exact ih _
    | cons x st =>
      rw [List.cons_append, run, run]
      split
      · exact ih _
      · split
        · split
          · exact ih _
          · rfl
        · exact ih _

theorem red_dot (st cs : List Comp) : red st (dot :: cs) = red st cs := by
  cases st <;> simp [red]

theorem red_cancel (st cs : List Comp) (x : Comp) (h1 : x ≠ dot) (h2 : x ≠ dotdot) :
    red st (x :: dotdot :: cs) = red st cs := by
  have hd : dotdot ≠ dot := by decide
  cases st <;> simp [red, h1, h2, hd]

theorem red_push (st cs : List Comp) (x : Comp) (h1 : x ≠ dot) (h2 : x ≠ dotdot) :
    red st (x :: cs) = red (x :: st) cs := by
  cases st <;> simp [red, h1, h2]

theorem red_step (a b : List Comp) (h : Step a b) (st : List Comp) : red st a = red st b := by
  cases h with
  | dot a b => rw [red_append, red_append, red_dot]
  | dotdot a b x h1 h2 => rw [red_append, red_append, red_cancel _ _ _ h1 h2]

theorem red_steps (a b : List Comp) (h : Steps a b) (st : List Comp) : red st a = red st b := by
  induction h with
  | refl => rfl
  | step _ _ _ h ih => rw [ih]; exact red_step _ _ h st

theorem red_dotdots (k : Nat) (st cs : List Comp) (h : ∀ x ∈ st, x = dotdot) :
    red st (List.replicate k dotdot ++ cs) = red (List.replicate k dotdot ++ st) cs := by
  have hd : dotdot ≠ dot := by decide
  induction k generalizing st with
  | zero => rfl
  | succ k ih =>
    have hone : red st (dotdot :: (List.replicate k dotdot ++ cs)) =
        red (dotdot :: st) (List.replicate k dotdot ++ cs) := by
      cases st with
      | nil => rw [red, if_neg hd]
      | cons x st => rw [red, if_neg hd]; rw [if_neg (fun h' => h'.2 (h x (by simp)))]
    rw [List.replicate_succ, List.cons_append, hone, ih (dotdot :: st)]
    · rw [List.cons_append]
      congr 1
      rw [show List.replicate k dotdot ++ dotdot :: st = (List.replicate k dotdot ++ [dotdot]) ++ st by
        simp, ← List.replicate_succ', List.replicate_succ, List.cons_append]
    · intro x hx
      rw [List.mem_cons] at hx
      rcases hx with rfl | hx
      · rfl
      · exact h x hx

theorem red_names (st cs : List Comp) (h : ∀ x ∈ cs, x ≠ dot ∧ x ≠ dotdot) :
    red st cs = cs.reverse ++ st := by
  induction cs generalizing st with
  | nil => rfl
  | cons c cs ih =>
    rw [red_push st cs c (h c (by simp)).1 (h c (by simp)).2,
      ih _ (fun x hx => h x (List.mem_cons_of_mem _ hx))]
    simp

theorem red_normal (cs : List Comp) (h : Normal cs) : red [] cs = cs.reverse := by
  obtain ⟨k, rest, rfl, hr⟩ := h
  rw [red_dotdots k [] rest (fun _ h => (by cases h)), red_names _ _ hr]
  simp

/-- A stack that is normal, the last component first. -/
def NormalStack (st : List Comp) : Prop := Normal st.reverse

theorem Spec.Normal.prefix {a b : List Comp} (h : Normal (a ++ b)) : Normal a := by
  obtain ⟨k, rest, h, hr⟩ := h
  rcases List.append_eq_append_iff.mp h with ⟨c, h1, h2⟩ | ⟨c, h1, h2⟩
  · refine ⟨a.length, [], ?_, fun _ h => (by cases h)⟩
    rw [List.append_nil]
    have : ∀ x ∈ a, x = dotdot := fun x hx => by
      have : x ∈ List.replicate k dotdot := by rw [h1]; exact List.mem_append_left _ hx
      exact List.eq_of_mem_replicate this
    exact List.eq_replicate_iff.mpr ⟨rfl, this⟩
  · refine ⟨k, c, h1, fun x hx => hr x ?_⟩
    rw [h2]; exact List.mem_append_left _ hx

theorem Spec.Normal.snoc {a : List Comp} {x : Comp} (h : Normal a) (h1 : x ≠ dot) (h2 : x ≠ dotdot) :
    Normal (a ++ [x]) := by
  obtain ⟨k, rest, rfl, hr⟩ := h
  refine ⟨k, rest ++ [x], by simp, ?_⟩
  intro y hy
  rw [List.mem_append, List.mem_singleton] at hy
  rcases hy with hy | rfl
  · exact hr y hy
  · exact ⟨h1, h2⟩

theorem Spec.Normal.last {a : List Comp} {x : Comp} (h : Normal (a ++ [x])) : x ≠ dot := by
  obtain ⟨k, rest, h, hr⟩ := h
  have hm : x ∈ List.replicate k dotdot ++ rest := by rw [← h]; simp
  rw [List.mem_append] at hm
  rcases hm with hm | hm
  · rw [List.eq_of_mem_replicate hm]; decide
  · exact (hr x hm).1

theorem Spec.Normal.dotdots {a : List Comp} (h : Normal (a ++ [dotdot])) :
    Normal (a ++ [dotdot] ++ [dotdot]) := by
  obtain ⟨k, rest, h, hr⟩ := h
  rcases List.eq_nil_or_concat rest with rfl | ⟨rest', y, rfl⟩
  · refine ⟨k + 1, [], ?_, fun _ h => (by cases h)⟩
    rw [h, List.append_nil, List.append_nil, List.replicate_succ']
  · rw [List.concat_eq_append, ← List.append_assoc] at h
    have := (List.append_inj' h rfl).2
    simp only [List.cons.injEq, and_true] at this
    exact absurd this.symm (hr y (by simp)).2

theorem Spec.Steps.head {a b c : List Comp} (h : Step a b) (h' : Steps b c) : Steps a c := by
  induction h' with
  | refl => exact .step _ _ _ (.refl _) h
  | step _ _ _ h2 ih => exact .step _ _ _ ih h2

theorem red_spec (st cs : List Comp) (h : Normal st.reverse) :
    Steps (st.reverse ++ cs) (red st cs).reverse ∧ Normal (red st cs).reverse := by
  induction cs generalizing st with
  | nil => rw [List.append_nil]; exact ⟨.refl _, h⟩
  | cons c cs ih =>
    by_cases hc : c = dot
    · subst hc
      rw [red_dot]
      obtain ⟨h1, h2⟩ := ih st h
      exact ⟨Spec.Steps.head (.dot _ _) h1, h2⟩
    · by_cases hdd : c = dotdot
      · subst hdd
        cases st with
        | nil =>
          rw [red, if_neg hc]
          obtain ⟨h1, h2⟩ := ih [dotdot] ⟨1, [], rfl, fun _ h => (by cases h)⟩
          exact ⟨h1, h2⟩
        | cons x st =>
          rw [red, if_neg hc]
          rw [List.reverse_cons] at h
          by_cases hx : x = dotdot
          · subst hx
            rw [if_neg (fun h => h.2 rfl)]
            obtain ⟨h1, h2⟩ := ih (dotdot :: dotdot :: st) (by
              rw [List.reverse_cons, List.reverse_cons]; exact h.dotdots)
            refine ⟨?_, h2⟩
            simpa using h1
          · rw [if_pos ⟨rfl, hx⟩]
            obtain ⟨h1, h2⟩ := ih st h.prefix
            refine ⟨?_, h2⟩
            rw [List.reverse_cons, List.append_assoc]
            exact Spec.Steps.head (.dotdot _ _ x h.last hx) h1
      · rw [red_push st cs c hc hdd]
        obtain ⟨h1, h2⟩ := ih (c :: st) (by rw [List.reverse_cons]; exact h.snoc hc hdd)
        refine ⟨?_, h2⟩
        simpa using h1

theorem simplified_red (cs : List Comp) : Simplified cs (red [] cs).reverse := by
  have := red_spec [] cs ⟨0, [], rfl, fun _ h => (by cases h)⟩
  exact this

theorem simplified_eq (cs out : List Comp) (h : Simplified cs out) : out = (red [] cs).reverse := by
  rw [red_steps cs out h.1, red_normal out h.2, List.reverse_reverse]

/-! ## Text -/

theorem intercalate_snoc (cs : List Comp) (x y : Comp) :
    List.intercalate ['/'] (cs ++ [y] ++ [x]) = List.intercalate ['/'] (cs ++ [y]) ++ '/' :: x := by
  induction cs with
  | nil => simp [List.intercalate, List.intersperse]
  | cons c cs ih =>
    cases cs with
    | nil => simp [List.intercalate, List.intersperse]
    | cons d cs =>
      simp only [List.intercalate, List.cons_append, List.intersperse, List.flatten_cons] at ih ⊢
      rw [ih]
      simp

theorem rend_render (r : List Char) (st : List Comp) : rend r st = render r st.reverse := by
  induction st with
  | nil => simp [rend, render, List.intercalate]
  | cons x st ih =>
    cases st with
    | nil => simp [rend, render, List.intercalate]
    | cons y st =>
      rw [rend, ih, render, render, List.reverse_cons (a := x), List.reverse_cons, intercalate_snoc]
      simp

/-- The three kinds of beginnings. -/
def Root (r : List Char) : Prop := r = [] ∨ r = ['/'] ∨ r = ['/', '/']

theorem root_cases (p : List Char) : Root (root p) := by
  unfold root Root
  split <;> simp

theorem comps_append (x s : List Char) (hx : Good x) (hs : s = [] ∨ s.head? = some '/') :
    comps (x ++ s) = x :: comps s := by
  obtain ⟨hne, hno⟩ := hx
  cases x with
  | nil => exact absurd rfl hne
  | cons c x =>
    have hc : c ≠ '/' := fun h => hno (by rw [h]; simp)
    have hx' : ∀ d ∈ x, (d != '/') = true := fun d hd => by
      simp only [bne_iff_ne, ne_eq]
      rintro rfl
      exact hno (List.mem_cons_of_mem _ hd)
    rw [List.cons_append, comps_other c _ hc]
    have : (x ++ s).takeWhile (· != '/') = x ∧ (x ++ s).dropWhile (· != '/') = s := by
      clear hne hno
      induction x with
      | nil =>
        rcases hs with rfl | hs
        · exact ⟨rfl, rfl⟩
        · cases s with
          | nil => cases hs
          | cons d s =>
            simp only [List.head?_cons, Option.some.injEq] at hs
            subst hs
            exact ⟨rfl, rfl⟩
      | cons d x ih =>
        have hd := hx' d (by simp)
        obtain ⟨h1, h2⟩ := ih (fun e he => hx' e (List.mem_cons_of_mem _ he))
        rw [List.cons_append]
        exact ⟨by rw [List.takeWhile_cons, if_pos hd, h1], by rw [List.dropWhile_cons, if_pos hd, h2]⟩
    rw [this.1, this.2]

theorem comps_joined (cs : List Comp) (h : ∀ x ∈ cs, Good x) :
    comps (List.intercalate ['/'] cs) = cs := by
  induction cs with
  | nil => rfl
  | cons x cs ih =>
    have hx := h x (by simp)
    have ih := ih (fun y hy => h y (List.mem_cons_of_mem _ hy))
    cases cs with
    | nil =>
      have : List.intercalate ['/'] [x] = x ++ [] := by simp [List.intercalate]
      rw [this, comps_append x [] hx (Or.inl rfl)]
      rfl
    | cons y cs =>
      have : List.intercalate ['/'] (x :: y :: cs) = x ++ '/' :: List.intercalate ['/'] (y :: cs) := by
        simp [List.intercalate, List.intersperse]
      rw [this, comps_append x _ hx (Or.inr rfl), comps_slash, ih]

theorem comps_render (r : List Char) (cs : List Comp) (hr : Root r) (h : ∀ x ∈ cs, Good x) :
    comps (render r cs) = cs := by
  unfold render
  rcases hr with rfl | rfl | rfl
  · exact comps_joined cs h
  · rw [List.singleton_append, comps_slash, comps_joined cs h]
  · rw [List.cons_append, List.singleton_append, comps_slash, comps_slash, comps_joined cs h]

theorem joined_head (cs : List Comp) (h : ∀ x ∈ cs, Good x) :
    (List.intercalate ['/'] cs).head? ≠ some '/' := by
  cases cs with
  | nil => intro h; cases h
  | cons x cs =>
    have hx := h x (by simp)
    obtain ⟨hne, hno⟩ := hx
    cases x with
    | nil => exact absurd rfl hne
    | cons c x =>
      have hc : c ≠ '/' := fun h => hno (by rw [h]; simp)
      cases cs with
      | nil => simpa [List.intercalate] using hc
      | cons y cs => simpa [List.intercalate, List.intersperse] using hc

theorem root_render (r : List Char) (cs : List Comp) (hr : Root r) (h : ∀ x ∈ cs, Good x) :
    root (render r cs) = r := by
  have hh := joined_head cs h
  unfold render
  generalize List.intercalate ['/'] cs = s at hh
  rcases hr with rfl | rfl | rfl
  · rw [List.nil_append]
    unfold root
    split <;> simp_all
  · rw [List.singleton_append]
    unfold root
    split <;> simp_all
  · rw [List.cons_append, List.singleton_append]
    cases s with
    | nil => rfl
    | cons c s =>
      have hc : c ≠ '/' := by simpa using hh
      unfold root
      split
      · simp_all
      · rfl
      · rename_i hx heq
        simp only [List.cons.injEq, true_and] at heq
        exact absurd heq.symm (hx _)
      · simp_all

theorem red_mem (st cs : List Comp) : ∀ x ∈ red st cs, x ∈ st ∨ x ∈ cs := by
  induction cs generalizing st with
  | nil => intro x hx; exact Or.inl hx
  | cons c cs ih =>
    intro x hx
    cases st with
    | nil =>
      rw [red] at hx
      split at hx
      · rcases ih _ x hx with h | h
        · exact Or.inl h
        · exact Or.inr (List.mem_cons_of_mem _ h)
      · rcases ih _ x hx with h | h
        · rw [List.mem_singleton] at h; exact Or.inr (by rw [h]; simp)
        · exact Or.inr (List.mem_cons_of_mem _ h)
    | cons y st =>
      rw [red] at hx
      split at hx
      · rcases ih _ x hx with h | h
        · exact Or.inl h
        · exact Or.inr (List.mem_cons_of_mem _ h)
      · split at hx
        · rcases ih _ x hx with h | h
          · exact Or.inl (List.mem_cons_of_mem _ h)
          · exact Or.inr (List.mem_cons_of_mem _ h)
        · rcases ih _ x hx with h | h
          · rw [List.mem_cons] at h
            rcases h with rfl | h
            · exact Or.inr (by simp)
            · exact Or.inl h
          · exact Or.inr (List.mem_cons_of_mem _ h)

theorem step_sublist (a b : List Comp) (h : Step a b) : b.Sublist a := by
  cases h with
  | dot a b => exact List.Sublist.append (List.Sublist.refl a) (List.sublist_cons_self _ _)
  | dotdot a b x _ _ =>
    exact List.Sublist.append (List.Sublist.refl a)
      ((List.sublist_cons_self _ _).trans (List.sublist_cons_self _ _))

theorem steps_sublist (a b : List Comp) (h : Steps a b) : b.Sublist a := by
  induction h with
  | refl => exact List.Sublist.refl _
  | step _ _ _ h ih => exact (step_sublist _ _ h).trans ih

/-- The number of characters that components need, with a slash before each. -/
def weight : List Comp → Nat
  | [] => 0
  | x :: cs => x.length + 1 + weight cs

theorem weight_sublist (a b : List Comp) (h : a.Sublist b) : weight a ≤ weight b := by
  induction h with
  | slnil => exact Nat.le_refl _
  | cons x _ ih => simp only [weight]; omega
  | cons_cons x _ ih => simp only [weight]; omega

theorem joined_length (cs : List Comp) : (List.intercalate ['/'] cs).length = weight cs - 1 := by
  induction cs with
  | nil => rfl
  | cons x cs ih =>
    cases cs with
    | nil => simp [List.intercalate, weight]
    | cons y cs =>
      have : List.intercalate ['/'] (x :: y :: cs) = x ++ '/' :: List.intercalate ['/'] (y :: cs) := by
        simp [List.intercalate, List.intersperse]
      rw [this, List.length_append, List.length_cons, ih]
      simp only [weight]
      omega

theorem comps_weight (p : List Char) : weight (comps p) ≤ p.length + 1 ∧
    (p.head? = some '/' → weight (comps p) ≤ p.length) := by
  generalize hn : p.length = n
  induction n using Nat.strongRecOn generalizing p with
  | _ n ih =>
    cases p with
    | nil => exact ⟨by simp [comps, weight], fun h => (by cases h)⟩
    | cons c p =>
      rw [List.length_cons] at hn
      by_cases hc : c = '/'
      · subst hc
        rw [comps_slash]
        obtain ⟨h1, _⟩ := ih p.length (by omega) p rfl
        exact ⟨by omega, fun _ => by omega⟩
      · rw [comps_other c p hc, weight, List.length_cons]
        have hl := takeWhile_dropWhile_length p
        obtain ⟨h1, h2⟩ := ih (p.dropWhile (· != '/')).length (by omega) _ rfl
        refine ⟨?_, fun h => ?_⟩
        · rcases dropWhile_head p with h | h
          · rw [h, List.length_nil] at hl
            rw [h]
            simp only [comps, weight]
            omega
          · have := h2 h
            omega
        · simp only [List.head?_cons, Option.some.injEq] at h
          exact absurd h hc

theorem root_comps_weight (p : List Char) : (root p).length + (weight (comps p) - 1) ≤ p.length := by
  obtain ⟨h1, h2, h3⟩ := leading_root p
  rw [← h1, ← h2]
  have := (comps_weight (leading p).2).1
  omega

end Yash.Path
