import Verif.Glob.Spec
/-!
# File systems without symbolic links

File systems that are used to show that the hypotheses of the theorems can be met.  Nothing in the
theorems depends on this file.
-/
set_option autoImplicit false

namespace Yash.Glob.Tree

open Spec (Sane Exists dirOf Tame Listed NoLoop Inside)

/-- A name as it is found in a pathname: empty names and `.` denote the directory itself. -/
def nameOf (buf : Path) : List Path := if buf = [] ∨ buf = ['.'] then [] else [buf]

/-- The names in a pathname; `buf` is what precedes it. -/
def namesFrom (buf : Path) : Path → List Path
  | [] => nameOf buf
  | c :: p => if c = '/' then nameOf buf ++ namesFrom [] p else namesFrom (buf ++ [c]) p

def names (p : Path) : List Path := namesFrom [] p

theorem namesFrom_slash (buf p q : Path) :
    namesFrom buf (p ++ '/' :: q) = namesFrom buf p ++ names q := by
  induction p generalizing buf with
  | nil => simp [namesFrom, names]
  | cons c p ih =>
    simp only [List.cons_append, namesFrom]
    split
    · rw [ih]; simp
    · exact ih _

theorem namesFrom_name (buf n : Path) (h : '/' ∉ n) (q : Path) :
    namesFrom buf (n ++ q) = namesFrom (buf ++ n) q := by
  induction n generalizing buf with
  | nil => simp
  | cons c n ih =>
    have hc : c ≠ '/' := fun e => h (by simp [e])
    simp only [List.cons_append, namesFrom, hc, if_false]
    rw [ih _ (fun h' => h (by simp [h']))]
    simp

/-- What follows the last slash. -/
def lastFrom (buf : Path) : Path → Path
  | [] => buf
  | c :: p => if c = '/' then lastFrom [] p else lastFrom (buf ++ [c]) p

theorem lastFrom_slash (buf p q : Path) : lastFrom buf (p ++ '/' :: q) = lastFrom [] q := by
  induction p generalizing buf with
  | nil => simp [lastFrom]
  | cons c p ih =>
    simp only [List.cons_append, lastFrom]
    split <;> exact ih _

theorem lastFrom_nil (buf p : Path) (h : namesFrom buf p = []) : nameOf (lastFrom buf p) = [] := by
  induction p generalizing buf with
  | nil => exact h
  | cons c p ih =>
    simp only [namesFrom, lastFrom] at h ⊢
    split
    · rename_i e
      rw [if_pos e] at h
      exact ih _ (List.append_eq_nil_iff.mp h).2
    · rename_i e
      rw [if_neg e] at h
      exact ih _ h

/-- A file system is given by the kind of the files (`true` for directories), and the names in the
directories. -/
structure Nodes where
  node : List Path → Option Bool
  children : List Path → List Path
  ino : List Path → Nat

structure Nodes.Ok (t : Nodes) : Prop where
  up : ∀ a n b, (t.node (a ++ n :: b)).isSome = true → t.node a = some true
  root : t.node [] = some true
  listed : ∀ a n, (t.node (a ++ [n])).isSome = true → n ∈ t.children a
  nodup : ∀ a, (t.children a).Nodup
  name : ∀ a, ∀ n ∈ t.children a, n ≠ [] ∧ n ≠ ['.'] ∧ '/' ∉ n

/-- The current directory is the root of the tree.  Regular files and directories are on different
devices. -/
def Nodes.fs (t : Nodes) : FS where
  readdir p :=
    if p ≠ [] ∧ t.node (names p) = some true then some (['.'] :: t.children (names p)) else none
  stat p :=
    if p = [] then none
    else match t.node (names p) with
      | none => none
      | some d => if nameOf (lastFrom [] p) = [] ∧ d = false then none
        else some ⟨d, if d then 0 else 1, t.ino (names p)⟩
  lstat p :=
    if p = [] then none
    else match t.node (names p) with
      | none => none
      | some d => if nameOf (lastFrom [] p) = [] ∧ d = false then none
        else some ⟨d, if d then 0 else 1, t.ino (names p)⟩

theorem exists_node {t : Nodes} {p : Path} (h : Exists t.fs p) : (t.node (names p)).isSome = true := by
  obtain ⟨st, h⟩ := h
  simp only [Nodes.fs] at h
  split at h
  · cases h
  · cases hn : t.node (names p) with
    | none => rw [hn] at h; cases h
    | some d => rfl

theorem stat_kind {t : Nodes} {p : Path} {st : Stat} (h : t.fs.stat p = some st) :
    st.dev = if st.dir then 0 else 1 := by
  simp only [Nodes.fs] at h
  split at h
  · cases h
  · cases hn : t.node (names p) with
    | none => rw [hn] at h; cases h
    | some d =>
      rw [hn] at h
      simp only at h
      split at h
      · cases h
      · cases h; rfl

theorem stat_dir {t : Nodes} {p : Path} (hp : p ≠ []) (h : t.node (names p) = some true) :
    t.fs.stat p = some ⟨true, 0, t.ino (names p)⟩ := by
  simp [Nodes.fs, hp, h]

theorem sane {t : Nodes} (ok : t.Ok) : Sane t.fs where
  names p ns h := by
    simp only [Nodes.fs] at h
    split at h
    · simp only [Option.some.injEq] at h
      subst h
      refine ⟨List.nodup_cons.mpr ⟨fun h => (ok.name _ _ h).2.1 rfl, ok.nodup _⟩, ?_⟩
      intro n hn
      rcases List.mem_cons.mp hn with rfl | hn
      · decide
      · exact ⟨(ok.name _ _ hn).1, (ok.name _ _ hn).2.2⟩
    · cases h
  complete p ns n q h hne hsl hp hq he := by
    have hd : names (dirOf p) = names p := by
      unfold dirOf
      split
      · rename_i e; subst e; rfl
      · rfl
    simp only [Nodes.fs, hd] at h
    split at h
    · simp only [Option.some.injEq] at h
      subst h
      by_cases hdot : n = ['.']
      · simp [hdot]
      · apply List.mem_cons_of_mem
        have h1 := exists_node he
        have h2 : names (p ++ n ++ q) = names p ++ names (n ++ q) := by
          rcases hp with rfl | ⟨p', rfl⟩
          · rfl
          · have e : p' ++ ['/'] ++ n ++ q = p' ++ '/' :: (n ++ q) := by simp
            rw [e]
            unfold names
            rw [namesFrom_slash, namesFrom_slash]
            simp [names, namesFrom, nameOf]
        have h3 : ∃ b, names (n ++ q) = n :: b := by
          unfold names
          rw [namesFrom_name _ _ hsl, List.nil_append]
          rcases hq with rfl | ⟨q', rfl⟩
          · exact ⟨[], by simp [namesFrom, nameOf, hne, hdot]⟩
          · exact ⟨_, by simp only [namesFrom, if_true, nameOf, hne, hdot, or_self, if_false]; rfl⟩
        obtain ⟨b, h3⟩ := h3
        rw [h2, h3] at h1
        apply ok.listed
        cases b with
        | nil => exact h1
        | cons m b => rw [ok.up _ m b (by simpa using h1)]; rfl
    · cases h
  read p ns h := by
    simp only [Nodes.fs] at h
    split at h
    · rename_i hc
      exact ⟨_, stat_dir hc.1 hc.2⟩
    · cases h
  parent p q hp he := by
    have h1 := exists_node he
    have e : names (p ++ '/' :: q) = names p ++ names q := namesFrom_slash [] p q
    rw [e] at h1
    suffices h : t.node (names p) = some true from ⟨_, stat_dir hp h⟩
    cases hq : names q with
    | cons n b => rw [hq] at h1; exact ok.up _ n b h1
    | nil =>
      rw [hq, List.append_nil] at h1
      obtain ⟨st, hst⟩ := he
      simp only [Nodes.fs, e, hq, List.append_nil] at hst
      rw [if_neg (by simp)] at hst
      cases hn : t.node (names p) with
      | none => rw [hn] at h1; cases h1
      | some d =>
        cases d with
        | true => rfl
        | false =>
          rw [hn] at hst
          simp only at hst
          rw [if_pos ⟨by rw [lastFrom_slash]; exact lastFrom_nil _ _ hq, trivial⟩] at hst
          cases hst
  notLink p st h _ := h
  kind p q st st' h h' e1 _ := by
    have h : t.fs.stat p = some st := h.elim id id
    have h' : t.fs.stat q = some st' := h'.elim id id
    have k1 := stat_kind h
    have k2 := stat_kind h'
    rw [k1, k2] at e1
    cases hd : st.dir <;> cases hd' : st'.dir <;> simp [hd, hd'] at e1 ⊢

theorem names_dirOf (p : Path) : names (dirOf p) = names p := by
  unfold dirOf
  split
  · rename_i e; subst e; rfl
  · rfl

theorem names_append {p : Path} (hp : p = [] ∨ ∃ p', p = p' ++ ['/']) (q : Path) :
    names (p ++ q) = names p ++ names q := by
  rcases hp with rfl | ⟨p', rfl⟩
  · rfl
  · have e : p' ++ ['/'] ++ q = p' ++ '/' :: q := by simp
    rw [e]
    unfold names
    rw [namesFrom_slash, namesFrom_slash]
    simp [names, namesFrom, nameOf]

theorem names_name {n : Path} (h : '/' ∉ n) : names n = nameOf n := by
  have := namesFrom_name [] n h []
  simpa [names, namesFrom] using this

theorem last_name {p : Path} (hp : p = [] ∨ ∃ p', p = p' ++ ['/']) {n : Path} (h : '/' ∉ n) :
    lastFrom [] (p ++ n) = n := by
  have : ∀ buf, lastFrom buf n = buf ++ n := by
    induction n with
    | nil => simp [lastFrom]
    | cons c n ih =>
      intro buf
      have hc : c ≠ '/' := fun e => h (by simp [e])
      simp only [lastFrom, hc, if_false]
      rw [ih (fun h' => h (by simp [h']))]
      simp
  rcases hp with rfl | ⟨p', rfl⟩
  · simpa using this []
  · have e : p' ++ ['/'] ++ n = p' ++ '/' :: n := by simp
    rw [e, lastFrom_slash]
    simpa using this []

theorem tame {t : Nodes} (ok : t.Ok)
    (full : ∀ a, t.node a = some true → ∀ n ∈ t.children a, (t.node (a ++ [n])).isSome = true) :
    Tame t.fs := by
  intro p n hp hn hsl
  have hne : p ++ n ≠ [] := by simp [hn]
  have hname := names_append hp n
  rw [names_name hsl] at hname
  constructor
  · rintro ⟨ns, hr, hm⟩
    simp only [Nodes.fs, names_dirOf] at hr
    split at hr
    · rename_i hc
      simp only [Option.some.injEq] at hr
      subst hr
      rcases List.mem_cons.mp hm with hm | hm
      · subst hm
        have hname : names (p ++ ['.']) = names p := by simpa [nameOf] using hname
        exact ⟨_, stat_dir hne (hname ▸ hc.2)⟩
      · have h1 := full _ hc.2 n hm
        have h2 := (ok.name _ n hm).2.1
        simp only [nameOf, hn, h2, or_self, if_false] at hname
        rw [← hname] at h1
        cases hd : t.node (names (p ++ n)) with
        | none => rw [hd] at h1; cases h1
        | some d =>
          refine ⟨⟨d, if d then 0 else 1, t.ino (names (p ++ n))⟩, ?_⟩
          simp only [Nodes.fs, hne, hd, if_false, last_name hp hsl, nameOf, hn, h2, or_self]
          simp
    · cases hr
  · intro he
    have h1 := exists_node he
    have hdir : t.node (names p) = some true := by
      obtain ⟨st, hst⟩ := he
      simp only [Nodes.fs, hne, if_false] at hst
      by_cases h2 : n = ['.']
      · subst h2
        have hname : names (p ++ ['.']) = names p := by simpa [nameOf] using hname
        rw [hname] at hst
        cases hd : t.node (names p) with
        | none => rw [hd] at hst; cases hst
        | some d =>
          cases d with
          | true => rfl
          | false =>
            rw [hd] at hst
            simp [last_name hp hsl, nameOf] at hst
      · simp only [nameOf, hn, h2, or_self, if_false] at hname
        rw [hname] at h1
        exact ok.up _ n [] h1
    have hr : t.fs.readdir (dirOf p) = some (['.'] :: t.children (names p)) := by
      have : dirOf p ≠ [] := by
        unfold dirOf
        split
        · decide
        · assumption
      simp [Nodes.fs, names_dirOf, hdir, this]
    refine ⟨_, hr, (sane ok).complete p _ n [] hr hn hsl hp (Or.inl rfl) (by simpa using he)⟩

theorem noLoop {t : Nodes} (hino : ∀ a, t.ino a = a.length) (follow : Bool) : NoLoop t.fs follow := by
  have ino : ∀ {p : Path} {st : Stat}, t.fs.stat p = some st → st.ino = (names p).length := by
    intro p st h
    simp only [Nodes.fs] at h
    split at h
    · cases h
    · cases hn : t.node (names p) with
      | none => rw [hn] at h; cases h
      | some d =>
        rw [hn] at h
        simp only at h
        split at h
        · cases h
        · cases h; exact hino _
  have step : ∀ {d n : Path} {st : Stat}, Spec.Enters t.fs follow true (d ++ ['/']) n st →
      st.ino = (names d).length + 1 ∧ (names (d ++ ['/'] ++ n)).length = (names d).length + 1 := by
    intro d n st he
    obtain ⟨h1, h2, -, h3, -, h4, -⟩ := he
    have h4 : t.fs.stat (d ++ ['/'] ++ n) = some st := by
      cases follow
      · exact h4
      · exact h4
    have e : names (d ++ ['/'] ++ n) = names d ++ [n] := by
      rw [names_append (Or.inr ⟨d, rfl⟩), names_name h2]
      simp only [nameOf, h1, h3, or_self, if_false]
      have : names (d ++ ['/']) = names d ++ names [] := namesFrom_slash [] d []
      rw [this, show names [] = [] from rfl, List.append_nil]
    rw [ino h4, e]
    simp
  intro d d' st st' hst hin hsame
  have : (names d).length < st'.ino ∧ st'.ino = (names d').length := by
    clear hsame
    induction hin with
    | one n st he => have := step he; omega
    | more d' n st st' _ he ih => have := step he; omega
  have := ino hst
  omega

/-- Directories `d`, `d/d`, …, and a file `x` in the last one. -/
def chain (k : Nat) : Nodes where
  node a :=
    if a.all (· == ['d']) && a.length ≤ k then some true
    else if a.length = k + 1 ∧ a.dropLast.all (· == ['d']) ∧ a.getLast? = some ['x'] then some false
    else none
  children a := if a.length < k then [['d']] else [['x']]
  ino a := a.length

theorem chain_ok (k : Nat) : (chain k).Ok where
  up a n b h := by
    simp only [chain] at h ⊢
    have h1 : a.all (· == ['d']) = true ∧ a.length ≤ k := by
      split at h
      · rename_i hc
        simp only [Bool.and_eq_true, decide_eq_true_eq, List.all_append, List.length_append,
          List.length_cons] at hc
        exact ⟨hc.1.1, by omega⟩
      · split at h
        · rename_i hc
          obtain ⟨hc1, hc2, -⟩ := hc
          simp only [List.length_append, List.length_cons] at hc1
          rw [List.dropLast_append_of_ne_nil (by simp), List.all_append, Bool.and_eq_true] at hc2
          exact ⟨hc2.1, by omega⟩
        · cases h
    rw [h1.1]
    simp [h1.2]
  root := by simp [chain]
  listed a n h := by
    simp only [chain] at h ⊢
    split at h
    · rename_i hc
      simp only [Bool.and_eq_true, decide_eq_true_eq, List.all_append, List.length_append,
        List.length_cons, List.length_nil, List.all_cons, List.all_nil, Bool.and_true, beq_iff_eq] at hc
      rw [if_pos (by omega), hc.1.2]
      simp
    · split at h
      · rename_i hc
        simp at hc
        rw [if_neg (by omega), hc.2.2]
        simp
      · cases h
  nodup a := by simp only [chain]; split <;> simp
  name a := by simp only [chain]; split <;> simp

theorem chain_full (k : Nat) (a : List Path) (h : (chain k).node a = some true) :
    ∀ n ∈ (chain k).children a, ((chain k).node (a ++ [n])).isSome = true := by
  have h1 : a.all (· == ['d']) = true ∧ a.length ≤ k := by
    simp only [chain] at h
    split at h
    · rename_i hc
      simpa using hc
    · split at h <;> cases h
  intro n hn
  simp only [chain] at hn ⊢
  split at hn
  · rename_i hlt
    simp only [List.mem_singleton] at hn
    subst hn
    rw [if_pos]
    · rfl
    · simp only [List.all_append, h1.1, List.length_append, List.length_cons, List.length_nil]
      simp
      omega
  · rename_i hlt
    simp only [List.mem_singleton] at hn
    subst hn
    rw [if_neg, if_pos]
    · rfl
    · refine ⟨by simp; omega, ?_, by simp⟩
      simpa using h1.1
    · simp

end Yash.Glob.Tree
