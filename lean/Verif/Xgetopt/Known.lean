import Verif.Xgetopt.Spec
/-!
# Only options that are listed are reported
-/
set_option autoImplicit false

namespace Yash.Xgetopt

open Spec

/-- The options that an argument gives. -/
def Spec.Single.options : Single → List Opt
  | .complete rs _ => rs.map (·.1)
  | .needs rs o => rs.map (·.1) ++ [o]
  | .bad rs _ => rs.map (·.1)

theorem options_cons (r : Report) (s : Single) : (Single.cons r s).options = r.1 :: s.options := by cases s <;> simp [Single.cons, Single.options]

theorem cluster_known (cfg : Config) (last : Option Arg) (cs : List Char) : ∀ o ∈ (cluster cfg last cs).options, o ∈ cfg.opts := by
  induction cs with
  | nil => simp [cluster, Single.options]
  | cons c cs ih =>
    rw [cluster]
    split
    · simp [Single.options]
    · rename_i o ho
      have hm : o ∈ cfg.opts := by
        unfold findShort at ho
        split at ho
        · cases ho
        · exact List.mem_of_find?_eq_some ho
      split
      · rw [options_cons]
        intro x hx
        rcases List.mem_cons.1 hx with rfl | hx
        · exact hm
        · exact ih x hx
      · split <;> simp [Single.options, hm]
      · simp [Single.options, hm]

theorem long_known (cfg : Config) (last : Option Arg) (name eq : List Char) : ∀ o ∈ (long cfg last name eq).options, o ∈ cfg.opts := by
  unfold long
  split
  · simp [Single.options]
  · split
    · simp [Single.options]
    · rename_i o ho
      have hm : o ∈ cfg.opts := by
        unfold findLong at ho
        split at ho
        · cases ho
        · rename_i h
          cases ho
          exact ((List.mem_filter (p := candidate cfg name)).1 (by rw [h]; simp)).1
        · rename_i h
          split at ho
          · cases ho
            exact ((List.mem_filter (p := candidate cfg name)).1 (by rw [h]; simp)).1
          · split at ho
            · cases ho
              exact ((List.mem_filter (p := candidate cfg name)).1 (by rw [h]; simp)).1
            · cases ho
      split <;> simp [Single.options, hm]

/-- Every option that is reported is in the list of options, whatever the arguments are. -/
theorem reports_known (cfg : Config) : ∀ (k : Nat) (args : List Arg), args.length ≤ k → ∀ last, ∀ r ∈ (parse cfg last args).reports, r.1 ∈ cfg.opts := by
  intro k
  induction k with
  | zero =>
    intro args hk last
    cases args with
    | nil => rw [parse]; simp
    | cons a rest => simp at hk
  | succ k ih =>
    intro args hk last
    cases args with
    | nil => rw [parse]; simp
    | cons a rest =>
      simp at hk
      rw [parse]
      cases hkind : kind cfg a with
      | separator => simp
      | operand =>
        simp only
        split
        · simp
        · exact ih rest hk last
      | long name eq =>
        simp only
        have h := long_known cfg last name eq
        generalize Spec.long cfg last name eq = s at h
        cases s with
        | complete rs l =>
          intro r hr
          rcases List.mem_append.1 hr with hr | hr
          · exact h _ (List.mem_map_of_mem hr)
          · exact ih rest hk l r hr
        | bad rs e =>
          intro r hr
          exact h _ (List.mem_map_of_mem hr)
        | needs rs o =>
          cases rest with
          | nil =>
            intro r hr
            exact h _ (List.mem_append_left _ (List.mem_map_of_mem hr))
          | cons b rest =>
            intro r hr
            rcases List.mem_append.1 hr with hr | hr
            · exact h _ (List.mem_append_left _ (List.mem_map_of_mem hr))
            · rcases List.mem_cons.1 hr with rfl | hr
              · exact h _ (by simp [Single.options])
              · exact ih rest (by simp at hk; omega) (some b) r hr
      | short cs =>
        simp only
        have h := cluster_known cfg last cs
        generalize cluster cfg last cs = s at h
        cases s with
        | complete rs l =>
          intro r hr
          rcases List.mem_append.1 hr with hr | hr
          · exact h _ (List.mem_map_of_mem hr)
          · exact ih rest hk l r hr
        | bad rs e =>
          intro r hr
          exact h _ (List.mem_map_of_mem hr)
        | needs rs o =>
          cases rest with
          | nil =>
            intro r hr
            exact h _ (List.mem_append_left _ (List.mem_map_of_mem hr))
          | cons b rest =>
            intro r hr
            rcases List.mem_append.1 hr with hr | hr
            · exact h _ (List.mem_append_left _ (List.mem_map_of_mem hr))
            · rcases List.mem_cons.1 hr with rfl | hr
              · exact h _ (by simp [Single.options])
              · exact ih rest (by simp at hk; omega) (some b) r hr

end Yash.Xgetopt
