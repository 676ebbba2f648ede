import Verif.Hash.Spec
import Verif.Path.WhichProps
/-! # Property C91: `hash` -/
set_option autoImplicit false

namespace Yash.Hash

open Variable (Word Map Shell get put remove get_put get_remove)
open Spec

theorem any_iff (reports : List (Xgetopt.Opt × Option Word)) (c : Char) :
    (reports.any fun o => o.1.short == c) = decide (c ∈ reports.map fun o => o.1.short) := by
  induction reports with
  | nil => rfl
  | cons o r ih =>
    rw [List.any_cons, ih, List.map_cons]
    by_cases h : o.1.short = c
    · simp [h]
    · have h' : ¬c = o.1.short := fun x => h x.symm
      rw [beq_false_of_ne h, Bool.false_or]
      exact decide_eq_decide.2 ⟨List.mem_cons_of_mem _, fun x => (List.mem_cons.1 x).resolve_left h'⟩

/-- `hashBuiltin` after the options. -/
theorem hash_eq {E : Env} {args : List Word} {letters : List Char} {operands : List Word} (h : Given E args letters operands) (hh : '-' ∉ letters) (s : State) :
    hashBuiltin E args s =
      if 'a' ∈ letters ∧ operands ≠ [] then .done s [] 2
      else if 'd' ∈ letters then
        if 'r' ∈ letters then
          if operands = [] then finish { s with homes := [] } [] 0
          else finish { s with homes := operands.foldl forgetHomeDirectory s.homes } [] 0
        else if operands = [] then finish s (printHomeDirectories s.homes) 0
        else finish { s with homes := (rememberHomes E s.homes 0 operands).1 } [] (rememberHomes E s.homes 0 operands).2
      else if 'r' ∈ letters then
        if operands = [] then finish { s with sh := { s.sh with cmdhash := [] } } [] 0
        else finish { s with sh := { s.sh with cmdhash := operands.foldl remove s.sh.cmdhash } } [] 0
      else if operands = [] then finish s (printCommandPaths E (decide ('a' ∈ letters)) s.sh.cmdhash) 0
      else
        match rememberCommands E s.sh 0 operands with
        | none => .abort
        | some q => finish { s with sh := q.1 } [] q.2 := by
  obtain ⟨reports, used, hp, rfl⟩ := h
  unfold hashBuiltin
  simp only [hp, any_iff]
  rw [if_neg (by simpa using hh)]
  simp only [Bool.and_eq_true, decide_eq_true_eq, Bool.not_eq_true', List.isEmpty_eq_false_iff, List.isEmpty_iff]
  rfl

theorem get_foldl_remove (operands : List Word) (m : Map Word) (name : Word) :
    get (operands.foldl remove m) name = if name ∈ operands then none else get m name := by
  induction operands generalizing m with
  | nil => simp
  | cons n ns ih => rw [List.foldl_cons, ih, get_remove]; grind

theorem printCommandPaths_eq (E : Env) (all : Bool) (m : Map Word) :
    printCommandPaths E all m = (m.filter fun e => e.2.head? == some '/' && (all || !E.builtin e.1)).map (·.2) := by
  induction m with
  | nil => rfl
  | cons e m ih =>
    obtain ⟨n, p⟩ := e
    rw [printCommandPaths, ih, List.filter_cons]
    by_cases h : p.head? = some '/' <;> cases hb : (all || !E.builtin n) <;> simp [h, hb]

theorem printHomeDirectories_eq (m : Map Word) : printHomeDirectories m = m.map fun e => ['~'] ++ e.1 ++ ['='] ++ e.2 := by
  induction m with
  | nil => rfl
  | cons e m ih => obtain ⟨n, p⟩ := e; simp [printHomeDirectories, ih]

theorem rememberHomes_spec (E : Env) (us : List Word) (homes : Map Word) (n : Nat) :
    (∀ u, get (rememberHomes E homes n us).1 u = if u ∈ us then (E.passwd u).or (get homes u) else get homes u) ∧
    ((rememberHomes E homes n us).2 = 0 ↔ n = 0 ∧ ∀ u ∈ us, (E.passwd u).isSome) := by
  induction us generalizing homes n with
  | nil => simp [rememberHomes]
  | cons v us ih =>
    unfold rememberHomes getHomeDirectory
    cases hv : E.passwd v with
    | none =>
      simp only [if_true, hv]
      refine ⟨fun u => ?_, ?_⟩
      · rw [(ih homes (n + 1)).1]
        by_cases h : u = v
        · subst h; simp [hv]
        · simp [h]
      · rw [(ih homes (n + 1)).2]; simp [hv]
    | some d =>
      simp only [if_true, hv]
      refine ⟨fun u => ?_, ?_⟩
      · rw [(ih _ n).1, get_put]
        by_cases h : u = v
        · subst h; simp [hv]
        · simp [h]
      · rw [(ih _ n).2]; simp [hv]

theorem search_one (E : Env) (sh : Shell) (name : Word) (hs : '/' ∉ name) :
    ∃ m r, Path.getCommandPath E.exec sh name true = some ({ sh with cmdhash := m }, r) ∧ (∀ k, get m k = if k = name then r else get sh.cmdhash k) ∧
      ∀ p, r = some p ↔ Found E sh name p := by
  have hr := Path.getCommandPath_eq E.exec sh name hs true
  rw [if_pos rfl] at hr
  have hf : ∀ p, (Path.searchResult E.exec sh name).2 = some p ↔ Found E sh name p := by
    intro p
    by_cases hn : name = []
    · subst hn
      simp [Found, Path.searchResult, Path.which]
    · rw [Path.searchResult_first E.exec sh name hn hs]
      exact ⟨fun h => ⟨hn, hs, h⟩, fun h => h.2.2⟩
  refine ⟨(Path.searchResult E.exec sh name).1.cmdhash, (Path.searchResult E.exec sh name).2, ?_, ?_, hf⟩
  · rw [hr]
    unfold Path.searchResult
    cases Path.which name (Variable.getPathArray sh.scopes "PATH".toList) E.exec <;> rfl
  · intro k
    unfold Path.searchResult
    cases Path.which name (Variable.getPathArray sh.scopes "PATH".toList) E.exec with
    | none => simp only [get_remove]
    | some p => simp only [get_put]

theorem rememberCommands_spec (E : Env) (ns : List Word) (sh : Shell) (n : Nat) :
    ∃ m n', rememberCommands E sh n ns = some ({ sh with cmdhash := m }, n') ∧
      (∀ k p, k ∈ ns → '/' ∉ k → (get m k = some p ↔ Found E sh k p)) ∧
      (∀ k, k ∉ ns ∨ '/' ∈ k → get m k = get sh.cmdhash k) ∧
      (n' = 0 ↔ n = 0 ∧ ∀ k ∈ ns, ∃ p, Found E sh k p) := by
  induction ns generalizing sh n with
  | nil => exact ⟨sh.cmdhash, n, rfl, by simp, by simp, by simp⟩
  | cons v ns ih =>
    rw [rememberCommands]
    by_cases hv : '/' ∈ v
    · rw [if_pos (by simpa using hv)]
      obtain ⟨m, n', h1, h2, h3, h4⟩ := ih sh (n + 1)
      refine ⟨m, n', h1, ?_, ?_, ?_⟩
      · intro k p hk hs
        exact h2 k p ((List.mem_cons.1 hk).resolve_left fun h => hs (h ▸ hv)) hs
      · intro k hk
        refine h3 k ?_
        rcases hk with hk | hk
        · exact .inl fun h => hk (List.mem_cons_of_mem _ h)
        · exact .inr hk
      · rw [h4]
        constructor
        · intro h; omega
        · rintro ⟨_, h⟩
          obtain ⟨p, hp⟩ := h v (List.mem_cons_self ..)
          exact absurd hv hp.2.1
    · rw [if_neg (by simpa using hv)]
      obtain ⟨m0, r, hg, hm, hr⟩ := search_one E sh v hv
      have hF : ∀ k p, Found E { sh with cmdhash := m0 } k p ↔ Found E sh k p := fun k p => Iff.rfl
      obtain ⟨m, n', h1, h2, h3, h4⟩ := ih { sh with cmdhash := m0 } (if r.isSome then n else n + 1)
      refine ⟨m, n', ?_, ?_, ?_, ?_⟩
      · rw [hg]
        cases r with
        | none => exact h1
        | some p => exact h1
      · intro k p hk hs
        by_cases hin : k ∈ ns
        · rw [h2 k p hin hs, hF]
        · have : k = v := (List.mem_cons.1 hk).resolve_right hin
          subst this
          rw [h3 k (.inl hin), hm, if_pos rfl, hr]
      · intro k hk
        have hne : k ≠ v := by
          rintro rfl
          rcases hk with hk | hk
          · exact hk (List.mem_cons_self ..)
          · exact hv hk
        rw [h3 k (hk.imp_left fun h hin => h (List.mem_cons_of_mem _ hin)), hm, if_neg hne]
      · rw [h4]
        cases hrr : r with
        | none =>
          constructor
          · intro h; simp at h
          · rintro ⟨_, h⟩
            obtain ⟨p, hp⟩ := h v (List.mem_cons_self ..)
            rw [← hr, hrr] at hp; cases hp
        | some p =>
          simp only [Option.isSome_some, if_true, List.mem_cons, forall_eq_or_imp, hF]
          have : ∃ p, Found E sh v p := ⟨p, (hr p).1 hrr⟩
          simp [this]

/-- **C91 (remember commands).** `hash name...` searches the directories of `PATH` for each of the names. Afterwards the first file that is found is remembered, and if there is none,
the command is forgotten; an operand with a slash changes nothing. Nothing else in the shell changes, nothing is printed, and the status is 0 exactly if all commands have been found. -/
theorem hash_commands {E : Env} {args : List Word} {letters : List Char} {operands : List Word} (h : Given E args letters operands) (hh : '-' ∉ letters)
    (ha : 'a' ∉ letters) (hd : 'd' ∉ letters) (hr : 'r' ∉ letters) (ho : operands ≠ []) (s : State) :
    ∃ table status, hashBuiltin E args s = .done { s with sh := { s.sh with cmdhash := table } } [] status ∧
      (∀ name p, name ∈ operands → '/' ∉ name → (get table name = some p ↔ Found E s.sh name p)) ∧
      (∀ name, name ∉ operands ∨ '/' ∈ name → get table name = get s.sh.cmdhash name) ∧
      (status = 0 ∨ status = 1) ∧ (status = 0 ↔ ∀ name ∈ operands, ∃ p, Found E s.sh name p) := by
  obtain ⟨m, n, h1, h2, h3, h4⟩ := rememberCommands_spec E operands s.sh 0
  refine ⟨m, if n == 0 then 0 else 1, ?_, h2, h3, ?_, ?_⟩
  · rw [hash_eq h hh, if_neg (by simp [ha]), if_neg hd, if_neg hr, if_neg ho, h1]; rfl
  · split <;> simp
  · by_cases hn : n = 0
    · simp only [hn, beq_self_eq_true, if_true, true_iff]; exact (h4.1 hn).2
    · simp only [beq_iff_eq, hn, if_false]
      exact ⟨fun h => by simp at h, fun h => absurd (h4.2 ⟨rfl, h⟩) hn⟩

/-- **C91 (forget commands).** `hash -r` forgets all commands, `hash -r name...` those, and nothing else. -/
theorem hash_forget {E : Env} {args : List Word} {letters : List Char} {operands : List Word} (h : Given E args letters operands) (hh : '-' ∉ letters)
    (ha : 'a' ∉ letters ∨ operands = []) (hd : 'd' ∉ letters) (hr : 'r' ∈ letters) (s : State) :
    ∃ table, hashBuiltin E args s = .done { s with sh := { s.sh with cmdhash := table } } [] 0 ∧
      ∀ name, get table name = if operands = [] ∨ name ∈ operands then none else get s.sh.cmdhash name := by
  rw [hash_eq h hh, if_neg (by rintro ⟨h1, h2⟩; exact ha.elim (· h1) h2), if_neg hd, if_pos hr]
  by_cases ho : operands = []
  · rw [if_pos ho]
    exact ⟨[], rfl, fun name => by simp [ho, Variable.get]⟩
  · rw [if_neg ho]
    exact ⟨_, rfl, fun name => by rw [get_foldl_remove]; simp [ho]⟩

/-- **C91 (print commands).** `hash` without operands prints the pathname of each remembered command that is found by an absolute pathname and, unless there is -a, is not the name of
a built-in. -/
theorem hash_print {E : Env} {args : List Word} {letters : List Char} (h : Given E args letters []) (hh : '-' ∉ letters) (hd : 'd' ∉ letters) (hr : 'r' ∉ letters) (s : State) :
    hashBuiltin E args s =
      .done s ((s.sh.cmdhash.filter fun e => decide (e.2.head? = some '/' ∧ ('a' ∈ letters ∨ E.builtin e.1 = false))).map (·.2)) 0 := by
  rw [hash_eq h hh, if_neg (by simp), if_neg hd, if_neg hr, if_pos rfl, printCommandPaths_eq]
  unfold finish
  congr 2
  apply List.filter_congr
  intro e _
  by_cases h1 : e.2.head? = some '/' <;> by_cases h2 : 'a' ∈ letters <;> cases h3 : E.builtin e.1 <;> simp [h1, h2]

/-- **C91 (remember home directories).** `hash -d user...` looks up the home directory of each user. Afterwards it is the one that is remembered; for a user that does not exist, nothing
changes and the status is 1. -/
theorem hash_homes {E : Env} {args : List Word} {letters : List Char} {operands : List Word} (h : Given E args letters operands) (hh : '-' ∉ letters)
    (ha : 'a' ∉ letters) (hd : 'd' ∈ letters) (hr : 'r' ∉ letters) (ho : operands ≠ []) (s : State) :
    ∃ table status, hashBuiltin E args s = .done { s with homes := table } [] status ∧
      (∀ user d, user ∈ operands → E.passwd user = some d → get table user = some d) ∧
      (∀ user, user ∉ operands ∨ E.passwd user = none → get table user = get s.homes user) ∧
      (status = 0 ∨ status = 1) ∧ (status = 0 ↔ ∀ user ∈ operands, E.passwd user ≠ none) := by
  obtain ⟨h1, h2⟩ := rememberHomes_spec E operands s.homes 0
  refine ⟨_, _, by rw [hash_eq h hh, if_neg (by simp [ha]), if_pos hd, if_neg hr, if_neg ho]; rfl, ?_, ?_, ?_, ?_⟩
  · intro u d hu hp; rw [h1, if_pos hu, hp]; rfl
  · intro u hu
    rw [h1]
    split
    · next hm => rw [hu.resolve_left (not_not_intro hm)]; rfl
    · rfl
  · split <;> simp
  · have : (∀ user ∈ operands, E.passwd user ≠ none) ↔ ∀ u ∈ operands, (E.passwd u).isSome := by
      simp only [Option.isSome_iff_ne_none]
    rw [this]
    by_cases hn : (rememberHomes E s.homes 0 operands).2 = 0
    · simp only [hn, beq_self_eq_true, if_true, true_iff]; exact (h2.1 hn).2
    · simp only [beq_iff_eq, hn, if_false]
      exact ⟨fun h => by simp at h, fun h => absurd (h2.2 ⟨rfl, h⟩) hn⟩

/-- **C91 (forget home directories).** -/
theorem hash_forget_homes {E : Env} {args : List Word} {letters : List Char} {operands : List Word} (h : Given E args letters operands) (hh : '-' ∉ letters)
    (ha : 'a' ∉ letters ∨ operands = []) (hd : 'd' ∈ letters) (hr : 'r' ∈ letters) (s : State) :
    ∃ table, hashBuiltin E args s = .done { s with homes := table } [] 0 ∧
      ∀ user, get table user = if operands = [] ∨ user ∈ operands then none else get s.homes user := by
  rw [hash_eq h hh, if_neg (by rintro ⟨h1, h2⟩; exact ha.elim (· h1) h2), if_pos hd, if_pos hr]
  by_cases ho : operands = []
  · rw [if_pos ho]
    exact ⟨[], rfl, fun name => by simp [ho, Variable.get]⟩
  · rw [if_neg ho]
    exact ⟨_, rfl, fun name => by
      have : operands.foldl forgetHomeDirectory s.homes = operands.foldl remove s.homes := rfl
      rw [this, get_foldl_remove]; simp [ho]⟩

/-- **C91 (print home directories).** -/
theorem hash_print_homes {E : Env} {args : List Word} {letters : List Char} (h : Given E args letters []) (hh : '-' ∉ letters) (hd : 'd' ∈ letters) (hr : 'r' ∉ letters) (s : State) :
    hashBuiltin E args s = .done s (s.homes.map fun e => ['~'] ++ e.1 ++ ['='] ++ e.2) 0 := by
  rw [hash_eq h hh, if_neg (by simp), if_pos hd, if_neg hr, if_pos rfl, printHomeDirectories_eq]
  rfl

/-- **C91 (refused).** -a with an operand, and what is not an option, is an error with status 2; nothing changes. -/
theorem hash_refused {E : Env} {args : List Word} (s : State)
    (h : (∃ letters operands, Given E args letters operands ∧ '-' ∉ letters ∧ 'a' ∈ letters ∧ operands ≠ []) ∨
      (∃ e, (Xgetopt.Spec.parse E.getopt none args).final = .error e ∧ ∀ o ∈ (Xgetopt.Spec.parse E.getopt none args).reports, o.1.short ≠ '-')) :
    hashBuiltin E args s = .done s [] 2 := by
  rcases h with ⟨l, o, hg, hh, ha, ho⟩ | ⟨e, he, hn⟩
  · rw [hash_eq hg hh, if_pos ⟨ha, ho⟩]
  · unfold hashBuiltin
    rw [if_neg (by simpa using hn)]
    simp only [he]

/-- The options that there are: -a and -d not in the POSIX mode. -/
theorem hash_letters (E : Env) (c : Char) :
    (Xgetopt.Spec.findShort E.getopt c).isSome ↔ c = 'r' ∨ ((c = 'a' ∨ c = 'd') ∧ E.posix = false) := by
  unfold Xgetopt.Spec.findShort Env.getopt hashOptions
  cases hp : E.posix <;> by_cases hc : c = '-' <;> simp [hc, @eq_comm Char _ c] <;> grind

/-! ## Histories -/

theorem given_unique {E : Env} {args : List Word} {l1 l2 : List Char} {o1 o2 : List Word} (h1 : Given E args l1 o1) (h2 : Given E args l2 o2) : l1 = l2 ∧ o1 = o2 := by
  obtain ⟨r1, u1, e1, rfl⟩ := h1
  obtain ⟨r2, u2, e2, rfl⟩ := h2
  rw [e1] at e2
  cases e2
  exact ⟨rfl, rfl⟩

/-- What an execution of `hash` does to the cache. -/
theorem hash_step {E : Env} {args : List Word} {s s' : State} {r : Option Word} (h : runEvent s (.hash E args) = some (s', r)) (user : Word) :
    (∃ d, Refreshes user d (.hash E args) ∧ get s'.homes user = some d) ∨
    (Forgets user (.hash E args) ∧ get s'.homes user = none) ∨
    ((∀ d, ¬Refreshes user d (.hash E args)) ∧ ¬Forgets user (.hash E args) ∧ get s'.homes user = get s.homes user) := by
  by_cases hg : ∃ letters operands, Given E args letters operands ∧ '-' ∉ letters
  · obtain ⟨letters, operands, hg, hh⟩ := hg
    have hR : ∀ d, Refreshes user d (.hash E args) ↔ 'd' ∈ letters ∧ 'r' ∉ letters ∧ 'a' ∉ letters ∧ user ∈ operands ∧ E.passwd user = some d := by
      intro d
      constructor
      · rintro ⟨l, o, hg', h1, h2, h3, h4, h5, h6⟩
        obtain ⟨rfl, rfl⟩ := given_unique hg hg'
        exact ⟨h1, h2, h3, h5, h6⟩
      · rintro ⟨h1, h2, h3, h5, h6⟩
        exact ⟨_, _, hg, h1, h2, h3, hh, h5, h6⟩
    have hF : Forgets user (.hash E args) ↔ 'd' ∈ letters ∧ 'r' ∈ letters ∧ (operands = [] ∨ ('a' ∉ letters ∧ user ∈ operands)) := by
      constructor
      · rintro ⟨l, o, hg', h1, h2, h3, h4⟩
        obtain ⟨rfl, rfl⟩ := given_unique hg hg'
        exact ⟨h1, h2, h4⟩
      · rintro ⟨h1, h2, h4⟩
        exact ⟨_, _, hg, h1, h2, hh, h4⟩
    simp only [hR, hF]
    by_cases ha : 'a' ∈ letters ∧ operands ≠ []
    · have he := hash_refused s (.inl ⟨letters, operands, hg, hh, ha⟩)
      rw [runEvent, he] at h
      cases h
      exact .inr (.inr ⟨fun d hx => hx.2.2.1 ha.1, fun hx => hx.2.2.elim ha.2 fun y => y.1 ha.1, rfl⟩)
    · have ha' : 'a' ∉ letters ∨ operands = [] := by
        by_cases h1 : 'a' ∈ letters
        · exact .inr (Classical.byContradiction fun h2 => ha ⟨h1, h2⟩)
        · exact .inl h1
      by_cases hd : 'd' ∈ letters
      · by_cases hr : 'r' ∈ letters
        · obtain ⟨t, he, ht⟩ := hash_forget_homes hg hh ha' hd hr s
          rw [runEvent, he] at h
          cases h
          have := ht user
          by_cases hc : operands = [] ∨ user ∈ operands
          · rw [if_pos hc] at this
            refine .inr (.inl ⟨⟨hd, hr, ?_⟩, this⟩)
            rcases hc with hc | hc
            · exact .inl hc
            · exact ha'.elim (fun x => .inr ⟨x, hc⟩) .inl
          · rw [if_neg hc] at this
            exact .inr (.inr ⟨fun d hx => hx.2.1 hr, fun hx => hc (hx.2.2.imp_right (·.2)), this⟩)
        · by_cases ho : operands = []
          · subst ho
            rw [runEvent, hash_print_homes hg hh hd hr] at h
            cases h
            exact .inr (.inr ⟨fun d hx => by simp at hx, fun hx => hr hx.2.1, rfl⟩)
          · have ha'' := ha'.resolve_right ho
            obtain ⟨t, st, he, h1, h2, _⟩ := hash_homes hg hh ha'' hd hr ho s
            rw [runEvent, he] at h
            cases h
            by_cases hu : user ∈ operands
            · cases hp : E.passwd user with
              | some d => exact .inl ⟨d, ⟨hd, hr, ha'', hu, rfl⟩, h1 user d hu hp⟩
              | none => exact .inr (.inr ⟨fun d hx => by simp at hx, fun hx => hr hx.2.1, h2 user (.inr hp)⟩)
            · exact .inr (.inr ⟨fun d hx => hu hx.2.2.2.1, fun hx => hr hx.2.1, h2 user (.inl hu)⟩)
      · refine .inr (.inr ⟨fun d hx => hd hx.1, fun hx => hd hx.1, ?_⟩)
        by_cases hr : 'r' ∈ letters
        · obtain ⟨t, he, _⟩ := hash_forget hg hh ha' hd hr s
          rw [runEvent, he] at h
          cases h; rfl
        · by_cases ho : operands = []
          · subst ho
            rw [runEvent, hash_print hg hh hd hr] at h
            cases h; rfl
          · obtain ⟨t, st, he, _⟩ := hash_commands hg hh (ha'.resolve_right ho) hd hr ho s
            rw [runEvent, he] at h
            cases h; rfl
  · refine .inr (.inr ⟨?_, ?_, ?_⟩)
    · rintro d ⟨l, o, h1, _, _, _, h2, _⟩; exact hg ⟨l, o, h1, h2⟩
    · rintro ⟨l, o, h1, _, _, h2, _⟩; exact hg ⟨l, o, h1, h2⟩
    · rw [runEvent] at h
      unfold hashBuiltin at h
      simp only [any_iff] at h
      by_cases hm : '-' ∈ (Xgetopt.Spec.parse E.getopt none args).reports.map fun o => o.1.short
      · rw [if_pos (by simpa using hm)] at h
        cases h; rfl
      · rw [if_neg (by simpa using hm)] at h
        cases hp : Xgetopt.Spec.parse E.getopt none args with
        | mk reports used operands final =>
          rw [hp] at hm h
          cases final with
          | done => exact absurd ⟨_, _, ⟨reports, used, hp, rfl⟩, hm⟩ hg
          | error e => cases h; rfl

theorem remembered_cons (e : Event) (h : List Event) (user d : Word) (hn : ¬Forgets user e ∧ ∀ d', ¬Refreshes user d' e) :
    Remembered (e :: h) user d ↔ Expands user d e ∨ Remembered h user d := by
  constructor
  · rintro ⟨later, x, earlier, he, hx, hl⟩
    cases later with
    | nil =>
      cases he
      exact .inl (hx.resolve_left (hn.2 d))
    | cons y later =>
      cases he
      exact .inr ⟨later, x, earlier, rfl, hx, fun z hz => hl z (List.mem_cons_of_mem _ hz)⟩
  · rintro (hx | ⟨later, x, earlier, rfl, hx, hl⟩)
    · exact ⟨[], e, h, rfl, .inr hx, by simp⟩
    · refine ⟨e :: later, x, earlier, rfl, hx, ?_⟩
      intro z hz
      rcases List.mem_cons.1 hz with rfl | hz
      · exact hn
      · exact hl z hz

/-- What is in the cache has been looked up before; if something has been looked up, there is something in the cache. -/
theorem cache_history {h : List Event} {s : State} (hist : History h s) (user : Word) :
    (∀ d, get s.homes user = some d → Remembered h user d) ∧ (get s.homes user = none → ∀ d, ¬Remembered h user d) := by
  induction hist with
  | start s hs =>
    rw [hs]
    refine ⟨fun d hd => (by cases hd), fun _ d => ?_⟩
    rintro ⟨l, e, er, he, _⟩
    cases l <;> cases he
  | event h s s' e r hist hrun ih =>
    cases e with
    | hash E args =>
      rcases hash_step hrun user with ⟨d, hr, hg⟩ | ⟨hf, hg⟩ | ⟨h1, h2, hg⟩
      · rw [hg]
        refine ⟨fun d' hd => ?_, fun hd => by cases hd⟩
        cases hd
        exact ⟨[], _, h, rfl, .inl hr, by simp⟩
      · rw [hg]
        refine ⟨fun d' hd => (by cases hd), fun _ d => ?_⟩
        rintro ⟨later, x, earlier, he, hx, hl⟩
        cases later with
        | nil =>
          cases he
          rcases hx with hx | hx
          · obtain ⟨l, o, g, _, h2, _⟩ := hx
            obtain ⟨l', o', g', _, h2', _⟩ := hf
            obtain ⟨rfl, rfl⟩ := given_unique g g'
            exact h2 h2'
          · exact hx
        | cons y later =>
          cases he
          exact (hl _ (List.mem_cons_self ..)).1 hf
      · rw [hg]
        have hc := fun d => remembered_cons (.hash E args) h user d ⟨h2, h1⟩
        refine ⟨fun d hd => (hc d).2 (.inr (ih.1 d hd)), fun hd d hx => ?_⟩
        rcases (hc d).1 hx with hx | hx
        · exact hx
        · exact ih.2 hd d hx
    | tilde E u =>
      have hc := fun d => remembered_cons (.tilde E u) h user d ⟨fun x => x, fun _ x => x⟩
      simp only [runEvent, getHomeDirectory, Bool.false_eq_true, if_false] at hrun
      cases hgu : get s.homes u with
      | some p =>
        rw [hgu] at hrun
        cases hrun
        refine ⟨fun d hd => (hc d).2 (.inr (ih.1 d hd)), fun hd d hx => ?_⟩
        rcases (hc d).1 hx with hx | hx
        · have := hx.1
          subst this
          rw [hgu] at hd; cases hd
        · exact ih.2 hd d hx
      | none =>
        rw [hgu] at hrun
        cases hp : E.passwd u with
        | none =>
          simp only [hp] at hrun
          cases hrun
          refine ⟨fun d hd => (hc d).2 (.inr (ih.1 d hd)), fun hd d hx => ?_⟩
          rcases (hc d).1 hx with hx | hx
          · obtain ⟨rfl, hx⟩ := hx
            rw [hp] at hx; cases hx
          · exact ih.2 hd d hx
        | some q =>
          simp only [hp] at hrun
          cases hrun
          simp only [get_put]
          by_cases hu : user = u
          · subst hu
            rw [if_pos rfl]
            refine ⟨fun d hd => ?_, fun hd => by cases hd⟩
            cases hd
            exact (hc q).2 (.inl ⟨rfl, hp⟩)
          · rw [if_neg hu]
            refine ⟨fun d hd => (hc d).2 (.inr (ih.1 d hd)), fun hd d hx => ?_⟩
            rcases (hc d).1 hx with hx | hx
            · exact hu hx.1.symm
            · exact ih.2 hd d hx

/-- **C91 (where `~user` comes from).** In every history, the directory for `~user` is one that a lookup has found that has been made since the last `hash -dr`, and that was not
followed by another one with `hash -d`; only if there was none, the home directory is looked up now. -/
theorem tilde_history {h : List Event} {s s' : State} {E : Env} {user : Word} {r : Option Word} (hist : History h s) (hrun : runEvent s (.tilde E user) = some (s', r)) :
    (∃ d, r = some d ∧ Remembered h user d) ∨ ((∀ d, ¬Remembered h user d) ∧ r = E.passwd user) := by
  have hc := cache_history hist user
  simp only [runEvent, getHomeDirectory, Bool.false_eq_true, if_false] at hrun
  cases hg : get s.homes user with
  | some p =>
    rw [hg] at hrun
    cases hrun
    exact .inl ⟨p, rfl, hc.1 p hg⟩
  | none =>
    rw [hg] at hrun
    refine .inr ⟨hc.2 hg, ?_⟩
    cases hp : E.passwd user with
    | none => simp only [hp] at hrun; cases hrun; rfl
    | some d => simp only [hp] at hrun; cases hrun; rfl

/-- **C91 (always the same).** Between two `~user`, if the first gives a directory and no `hash -d` concerns the user, the second gives the same directory, whatever has
happened to the users. -/
theorem tilde_same {s1 s2 s3 s4 : State} {E1 E2 : Env} {user d : Word} {r : Option Word} (events : List Event)
    (h1 : runEvent s1 (.tilde E1 user) = some (s2, some d))
    (hmid : events.foldlM (fun s e => (runEvent s e).map (·.1)) s2 = some s3)
    (hno : ∀ e ∈ events, ¬Forgets user e ∧ ∀ d', ¬Refreshes user d' e)
    (h2 : runEvent s3 (.tilde E2 user) = some (s4, r)) : r = some d := by
  have hs2 : get s2.homes user = some d := by
    simp only [runEvent, getHomeDirectory, Bool.false_eq_true, if_false] at h1
    cases hg : get s1.homes user with
    | some p => rw [hg] at h1; cases h1; exact hg
    | none =>
      rw [hg] at h1
      cases hp : E1.passwd user with
      | none => simp only [hp] at h1; cases h1
      | some q => simp only [hp] at h1; cases h1; simp [get_put]
  have hs3 : get s3.homes user = some d := by
    clear h1 h2
    induction events generalizing s2 with
    | nil => cases hmid; exact hs2
    | cons e events ih =>
      rw [List.foldlM_cons] at hmid
      cases he : runEvent s2 e with
      | none => rw [he] at hmid; cases hmid
      | some q =>
        rw [he] at hmid
        have hn := hno e (List.mem_cons_self ..)
        refine ih (s2 := q.1) hmid (fun x hx => hno x (List.mem_cons_of_mem _ hx)) ?_
        cases e with
        | hash E args =>
          rcases hash_step (r := q.2) (s' := q.1) he user with ⟨d', hr, _⟩ | ⟨hf, _⟩ | ⟨_, _, hg⟩
          · exact absurd hr (hn.2 d')
          · exact absurd hf hn.1
          · rw [hg, hs2]
        | tilde E u =>
          simp only [runEvent, getHomeDirectory, Bool.false_eq_true, if_false] at he
          by_cases hu : u = user
          · subst hu
            rw [hs2] at he
            cases he; exact hs2
          · cases hg : get s2.homes u with
            | some p => rw [hg] at he; cases he; exact hs2
            | none =>
              rw [hg] at he
              cases hp : E.passwd u with
              | none => simp only [hp] at he; cases he; exact hs2
              | some q => simp only [hp] at he; cases he; simp only [get_put]; rw [if_neg (Ne.symm hu)]; exact hs2
  simp only [runEvent, getHomeDirectory, Bool.false_eq_true, if_false, hs3] at h2
  cases h2; rfl

/-- **C91 (finding).** For a user that does not exist any more, `hash -d user` reports an error, but `~user` keeps expanding to the old directory. -/
theorem hash_stale {E : Env} {args : List Word} {letters : List Char} {user d : Word} (h : Given E args letters [user]) (hh : '-' ∉ letters)
    (ha : 'a' ∉ letters) (hd : 'd' ∈ letters) (hr : 'r' ∉ letters) (hp : E.passwd user = none) (s : State) (hs : get s.homes user = some d) :
    ∃ s', hashBuiltin E args s = .done s' [] 1 ∧ ∀ E', ∃ s'', runEvent s' (.tilde E' user) = some (s'', some d) := by
  obtain ⟨t, st, he, _, h2, h3, h4⟩ := hash_homes h hh ha hd hr (by simp) s
  have : st = 1 := h3.resolve_left fun h0 => (h4.1 h0) user (by simp) hp
  subst this
  refine ⟨_, he, fun E' => ?_⟩
  simp only [runEvent, getHomeDirectory, Bool.false_eq_true, if_false, h2 user (.inr hp), hs]
  exact ⟨_, rfl⟩

end Yash.Hash
