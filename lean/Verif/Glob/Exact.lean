import Verif.Glob.Parse
/-!
# When the search finds everything
-/
set_option autoImplicit false

namespace Yash.Glob

open Fnmatch (Locale isMatchingPattern)
open Spec

theorem finds_prefix {loc : Locale} {fs : FS} {o : Options} {l e : Path → Path → Prop}
    {ps : List Part} {p r : Path} (h : Finds loc fs o l e ps p r) : p <+: r := by
  induction h with
  | lastName n p _ => exact List.prefix_append _ _
  | name n p r _ _ _ ih => exact (List.prefix_append _ _).trans (List.append_assoc p n _ ▸ ih)
  | lastPattern as n p r _ _ hs =>
    cases hs with
    | marked => exact (List.prefix_append p n).trans (List.prefix_append _ _)
    | plain => exact List.prefix_append _ _
  | pattern as n p r _ _ _ _ _ ih => exact (List.prefix_append _ _).trans (List.append_assoc p n _ ▸ ih)
  | here _ _ _ _ _ _ ih => exact ih
  | deeper _ _ n p r _ _ _ _ _ ih => exact (List.prefix_append _ _).trans (List.append_assoc p n _ ▸ ih)

theorem slashes_append (p q : Path) : slashes (p ++ q) = slashes p + slashes q := by
  simp [slashes, List.filter_append]

theorem slashes_prefix {p q : Path} (h : p <+: q) : slashes p ≤ slashes q := by
  obtain ⟨t, rfl⟩ := h
  rw [slashes_append]
  omega

/-- The directories that have been entered: each of them is inside the next one. -/
def Nested (fs : FS) (follow : Bool) (p : Path) (ds : List Path) : Prop :=
  ∀ d ∈ ds, p = d ++ ['/'] ∨ ∃ d' st, p = d' ++ ['/'] ∧ Inside fs follow d d' st

theorem nested_step {fs : FS} {follow f h : Bool} {p n : Path} {st : Stat} {ds : List Path} (hs : Sane fs)
    (hn : Nested fs follow p ds) (he : Enters fs f h p n st) (hf : f = true → follow = true) :
    (∀ d ∈ ds, Inside fs follow d (p ++ n) st) ∧ Nested fs follow (p ++ n ++ ['/']) ((p ++ n) :: ds) := by
  have he' : Enters fs follow true p n st := by
    obtain ⟨h1, h2, -, h3, h4, h5, h6⟩ := he
    refine ⟨h1, h2, by simp, h3, h4, ?_, h6⟩
    cases f with
    | true => rw [hf rfl]; simpa using h5
    | false =>
      simp only [Bool.false_eq_true, if_false] at h5
      cases follow with
      | false => simpa using h5
      | true => simpa using hs.notLink _ _ h5 h6
  have hin : ∀ d ∈ ds, Inside fs follow d (p ++ n) st := by
    intro d hd
    rcases hn d hd with rfl | ⟨d', st', rfl, hi⟩
    · exact .one n st he'
    · exact .more d' n st st' hi he'
  refine ⟨hin, ?_⟩
  intro d hd
  rcases List.mem_cons.mp hd with rfl | hd
  · exact Or.inl rfl
  · exact Or.inr ⟨p ++ n, st, rfl, hin d hd⟩

theorem finds_once {loc : Locale} {fs : FS} {o : Options} {l e : Path → Path → Prop} {follow : Bool}
    (hs : Sane fs) (hn : NoLoop fs follow) {ps : List Part} {p r : Path} (h : Finds loc fs o l e ps p r) :
    (∀ f h, Part.descend f h ∈ ps → f = true → follow = true) → slashes r < 255 →
    ∀ ds, Nested fs follow p ds → ds.length ≤ slashes p → FindsOnce loc fs o l e ps p ds r := by
  have empty : ∀ p, Nested fs follow p [] := fun p d hd => by cases hd
  induction h with
  | lastName n p he => exact fun _ _ ds _ _ => .lastName n p ds he
  | name n p r part parts _ ih =>
    intro hf hr ds _ _
    exact .name n p r ds part parts
      (ih (fun f h hm => hf f h (List.mem_cons_of_mem _ hm)) hr [] (empty _) (Nat.zero_le _))
  | lastPattern as n p r h1 h2 h3 => exact fun _ _ ds _ _ => .lastPattern as n p r ds h1 h2 h3
  | pattern as n p r part parts h1 h2 _ ih =>
    intro hf hr ds _ _
    exact .pattern as n p r ds part parts h1 h2
      (ih (fun f h hm => hf f h (List.mem_cons_of_mem _ hm)) hr [] (empty _) (Nat.zero_le _))
  | here f h p r parts _ ih =>
    intro hf hr ds hd hl
    exact .here f h p r ds parts (ih (fun f h hm => hf f h (List.mem_cons_of_mem _ hm)) hr ds hd hl)
  | deeper f h n p r st parts h1 h2 hrest ih =>
    intro hf hr ds hd hl
    obtain ⟨hin, hnest⟩ := nested_step hs hd h2 (hf f h (by simp))
    have hsl : slashes (p ++ n ++ ['/']) = slashes p + slashes n + 1 := by
      rw [slashes_append, slashes_append]
      rfl
    have hle := slashes_prefix (finds_prefix hrest)
    refine .deeper f h n p r st ds parts h1 h2 ?_ (by omega)
      (ih hf hr _ hnest (by simp only [List.length_cons]; omega))
    intro d hdm st' hst' hsame
    exact hn d (p ++ n) st' st hst' (hin d hdm) hsame

theorem finds_tame {loc : Locale} {fs : FS} {o : Options} (hs : Sane fs) (ht : Tame fs) {ps : List Part}
    {p r : Path} (h : Finds loc fs o (Weak fs) (Weak fs) ps p r) :
    (∀ n, Part.name n ∈ ps → '/' ∉ n) → (p = [] ∨ ∃ p', p = p' ++ ['/']) →
    Finds loc fs o (Listed fs) (fun p n => Exists fs (p ++ n)) ps p r := by
  have listed : ∀ {p n}, (p = [] ∨ ∃ p', p = p' ++ ['/']) → n ≠ [] → '/' ∉ n → Weak fs p n →
      Listed fs p n := by
    rintro p n hp hn hsl (h | h)
    · exact h
    · exact (ht p n hp hn hsl).mpr h
  induction h with
  | lastName n p hw =>
    intro hsl hp
    refine .lastName n p ?_
    rcases hw with ⟨ns, hr, hm⟩ | h
    · exact (ht p n hp ((hs.names _ _ hr).2 n hm).1 ((hs.names _ _ hr).2 n hm).2).mp ⟨ns, hr, hm⟩
    · exact h
  | name n p r part parts _ ih =>
    intro hsl hp
    exact .name n p r part parts (ih (fun n hm => hsl n (List.mem_cons_of_mem _ hm)) (Or.inr ⟨_, rfl⟩))
  | lastPattern as n p r h1 h2 h3 =>
    intro hsl hp
    exact .lastPattern as n p r (listed hp h2.1 h2.2.1 h1) h2 h3
  | pattern as n p r part parts h1 h2 _ ih =>
    intro hsl hp
    exact .pattern as n p r part parts (listed hp h2.1 h2.2.1 h1) h2
      (ih (fun n hm => hsl n (List.mem_cons_of_mem _ hm)) (Or.inr ⟨_, rfl⟩))
  | here f h p r parts _ ih =>
    intro hsl hp
    exact .here f h p r parts (ih (fun n hm => hsl n (List.mem_cons_of_mem _ hm)) hp)
  | deeper f h n p r st parts h1 h2 _ ih =>
    intro hsl hp
    exact .deeper f h n p r st parts (listed hp h2.1 h2.2.1 h1) h2 (ih hsl (Or.inr ⟨_, rfl⟩))

theorem divides_names {ext : Bool} {pat : Path} {parts : List Part}
    (hd : Divides isMatchingPattern ext pat parts) : ∀ n, Part.name n ∈ parts → '/' ∉ n := by
  have ord : ∀ {t : Path} {n : Path}, '/' ∉ t → Ordinary isMatchingPattern t (.name n) → '/' ∉ n := by
    intro t n ht ho
    cases ho with
    | name => exact fun h => ht (unquoted_mem h)
  induction hd with
  | last t part ht ho =>
    intro n hn
    rw [← List.mem_singleton.mp hn] at ho
    exact ord ht ho
  | ordinary t rest part ps ht _ ho _ ih =>
    intro n hn
    rcases List.mem_cons.mp hn with hn | hn
    · rw [← hn] at ho
      exact ord ht ho
    · exact ih n hn
  | keyword t rest f h ps _ _ _ ih =>
    intro n hn
    rcases List.mem_cons.mp hn with hn | hn
    · cases hn
    · exact ih n hn

end Yash.Glob
