import Verif.Path.WhichSpec
import Verif.Variable.CmdHash
import Verif.Variable.Props
/-!
# C33: command search; C41: the order of the search
-/
set_option autoImplicit false

namespace Yash.Path

open Variable (Name Word Map Shell get put remove getPathArray Keeps Backed)
open Spec (In FirstMatch searched History Forgets FoundBefore)

theorem whichPath_in (dir name : Word) : In dir name (whichPath dir name) := by
  unfold whichPath
  cases dir with
  | nil => exact Or.inl ⟨rfl, rfl⟩
  | cons c d =>
    rw [if_neg (by simp)]
    split
    · rename_i h
      rw [List.getLast?_eq_some_iff] at h
      exact Or.inr (Or.inl ⟨h.choose, h.choose_spec, rfl⟩)
    · rename_i h
      refine Or.inr (Or.inr ⟨by simp, fun e he => h ?_, by simp⟩)
      rw [he]; simp

theorem in_unique (dir name p q : Word) (h : In dir name p) (h' : In dir name q) : p = q := by
  rcases h with ⟨rfl, rfl⟩ | ⟨d, hd, rfl⟩ | ⟨h1, h2, rfl⟩ <;>
    rcases h' with ⟨h3, rfl⟩ | ⟨d', hd', rfl⟩ | ⟨h3, h4, rfl⟩
  · rfl
  · simp at hd'
  · exact absurd rfl h3
  · rw [h3] at hd; simp at hd
  · rfl
  · exact absurd hd (h4 d)
  · exact absurd h3 h1
  · exact absurd hd' (h2 d')
  · rfl

theorem whichLoop_first (exec : Word → Bool) (name : Word) (dirs : List Word) (p : Word) :
    whichLoop exec name dirs = some p ↔ FirstMatch exec dirs name p := by
  induction dirs with
  | nil =>
    simp only [whichLoop, FirstMatch, reduceCtorEq, false_iff]
    rintro ⟨b, d, a, h, _⟩
    simp at h
  | cons dir dirs ih =>
    rw [whichLoop]
    split
    · rename_i hx
      constructor
      · intro h
        cases h
        exact ⟨[], dir, dirs, rfl, whichPath_in dir name, hx, fun e he => (by cases he)⟩
      · rintro ⟨b, d, a, h, h1, h2, h3⟩
        cases b with
        | nil =>
          cases h
          rw [in_unique _ _ _ _ h1 (whichPath_in dir name)]
        | cons e b =>
          cases h
          have := h3 dir List.mem_cons_self _ (whichPath_in dir name)
          rw [hx] at this
          cases this
    · rename_i hx
      rw [ih]
      constructor
      · rintro ⟨b, d, a, h, h1, h2, h3⟩
        refine ⟨dir :: b, d, a, by rw [h]; rfl, h1, h2, fun e he q hq => ?_⟩
        rw [List.mem_cons] at he
        rcases he with rfl | he
        · rw [in_unique _ _ _ _ hq (whichPath_in e name)]
          simpa using hx
        · exact h3 e he q hq
      · rintro ⟨b, d, a, h, h1, h2, h3⟩
        cases b with
        | nil =>
          cases h
          rw [in_unique _ _ _ _ h1 (whichPath_in dir name)] at h2
          exact absurd h2 hx
        | cons e b =>
          cases h
          exact ⟨b, d, a, rfl, h1, h2, fun e he => h3 e (List.mem_cons_of_mem _ he)⟩

theorem which_first (exec : Word → Bool) (sh : Shell) (name : Word) (hn : name ≠ [])
    (hs : '/' ∉ name) (p : Word) :
    which name (getPathArray sh.scopes "PATH".toList) exec = some p ↔
      FirstMatch exec (searched sh) name p := by
  unfold searched
  unfold which
  split
  · exact absurd rfl hn
  · exact absurd List.mem_cons_self hs
  · cases getPathArray sh.scopes "PATH".toList with
    | some dirs => exact whichLoop_first exec name dirs p
    | none =>
      simp only [Option.getD_none, reduceCtorEq, false_iff]
      rintro ⟨b, d, a, h, _⟩
      simp at h

theorem first_suffix (exec : Word → Bool) (dirs : List Word) (name p : Word)
    (h : FirstMatch exec dirs name p) : p.drop (p.length - name.length) = name := by
  obtain ⟨b, d, a, _, h1, _⟩ := h
  rcases h1 with ⟨_, rfl⟩ | ⟨e, _, rfl⟩ | ⟨_, _, rfl⟩
  · simp
  · simp
  · rw [show (d ++ ['/'] ++ name).length - name.length = (d ++ ['/']).length by simp; omega]
    exact List.drop_left

/-- The state and the result of a search in the directories. -/
def searchResult (exec : Word → Bool) (sh : Shell) (name : Word) : Shell × Option Word :=
  match which name (getPathArray sh.scopes "PATH".toList) exec with
  | some path => ({ sh with cmdhash := put sh.cmdhash name path }, some path)
  | none => ({ sh with cmdhash := remove sh.cmdhash name }, none)

theorem getCommandPath_eq (exec : Word → Bool) (sh : Shell) (name : Word) (hs : '/' ∉ name)
    (force : Bool) :
    getCommandPath exec sh name force = some (
      if force then searchResult exec sh name
      else
        match get sh.cmdhash name with
        | some path =>
          if path.head? = some '/' && exec path then (sh, some path) else searchResult exec sh name
        | none => searchResult exec sh name) := by
  have key : searchDirs exec sh name = some (searchResult exec sh name) := by
    unfold searchResult searchDirs
    cases hw : which name (getPathArray sh.scopes "PATH".toList) exec with
    | none => rfl
    | some path =>
      simp only
      rw [if_pos]
      by_cases hn : name = []
      · subst hn; cases hw
      · exact first_suffix _ _ _ _ ((which_first exec sh name hn hs path).mp hw)
  unfold getCommandPath
  rw [key]
  cases force with
  | true => rfl
  | false =>
    simp only [Bool.false_eq_true, if_false]
    cases get sh.cmdhash name with
    | none => rfl
    | some path =>
      simp only
      split <;> rfl

theorem searchResult_first (exec : Word → Bool) (sh : Shell) (name : Word) (hn : name ≠ [])
    (hs : '/' ∉ name) (p : Word) :
    (searchResult exec sh name).2 = some p ↔ FirstMatch exec (searched sh) name p := by
  rw [← which_first exec sh name hn hs p]
  unfold searchResult
  cases which name (getPathArray sh.scopes "PATH".toList) exec <;> simp

/-- **C33 (search).**  A search that does not use what is remembered (`hash name`, or nothing is
remembered) succeeds, without an assertion failing, exactly if some directory of the search path has
an executable regular file with the name, and then finds the one in the first such directory. -/
theorem C33_search (exec : Word → Bool) (sh : Shell) (name : Word) (hn : name ≠ []) (hs : '/' ∉ name)
    (force : Bool) (hf : force = true ∨ ∀ e ∈ sh.cmdhash, e.1 ≠ name) :
    ∃ sh' r, getCommandPath exec sh name force = some (sh', r) ∧
      (∀ p, r = some p ↔ FirstMatch exec (searched sh) name p) ∧
      (r = none ↔ ∀ dir ∈ searched sh, ∀ q, In dir name q → exec q = false) := by
  have hr : getCommandPath exec sh name force = some (searchResult exec sh name) := by
    rw [getCommandPath_eq exec sh name hs]
    rcases hf with hf | hf
    · rw [hf]; rfl
    · cases force with
      | true => rfl
      | false =>
        have : get sh.cmdhash name = none := by
          cases h : get sh.cmdhash name with
          | none => rfl
          | some v => exact absurd rfl (hf _ (Variable.get_mem _ _ _ h))
        rw [this]; rfl
  refine ⟨(searchResult exec sh name).1, (searchResult exec sh name).2, hr,
    searchResult_first exec sh name hn hs, ?_⟩
  constructor
  · intro hnone dir hdir q hq
    cases hx : exec q with
    | false => rfl
    | true =>
      exfalso
      -- the first directory with an executable file
      have : ∀ dirs : List Word, dir ∈ dirs → ∃ p, whichLoop exec name dirs = some p := by
        intro dirs hd
        induction dirs with
        | nil => cases hd
        | cons e dirs ih =>
          rw [whichLoop]
          split
          · exact ⟨_, rfl⟩
          · rename_i hne
            rw [List.mem_cons] at hd
            rcases hd with rfl | hd
            · rw [← in_unique _ _ _ _ hq (whichPath_in dir name)] at hne
              exact absurd hx hne
            · exact ih hd
      obtain ⟨p, hp⟩ := this _ hdir
      have := (searchResult_first exec sh name hn hs p).mpr ((whichLoop_first _ _ _ _).mp hp)
      rw [hnone] at this
      cases this
  · intro hall
    cases hr : (searchResult exec sh name).2 with
    | none => rfl
    | some p =>
      obtain ⟨b, d, a, h, h1, h2, _⟩ := (searchResult_first exec sh name hn hs p).mp hr
      have := hall d (by rw [h]; simp) p h1
      rw [h2] at this
      cases this

/-! ## Histories -/

theorem reachable_start {seed : Word → Bool} {ok : Shell → Variable.Op → Prop} {sh : Shell}
    (h : Variable.Spec.Reachable seed ok sh) :
    Variable.SaneC sh ∧ Backed sh.scopes ∧ sh.cmdhash = [] := by
  have hs : ∀ {sh}, Variable.Spec.Reachable seed ok sh → Variable.SaneC sh := fun h =>
    (Variable.sane_iff _).mp (Variable.C25_sane seed ok _ h)
  refine ⟨hs h, ?_⟩
  induction h with
  | start env hnd => exact ⟨Variable.initEnvironment_backed env, rfl⟩
  | lineno sh sh' h1 hl h2 ih =>
    unfold Variable.initLineno at h2
    split at h2
    · cases h2
    · rename_i f hf
      split at h2
      · cases h2
      · cases h2
        have g := Variable.newGlobal_spec _ _ f (hs h1).pos hf
        refine ⟨Variable.putVar_backed _ _ _ _ (g.cleared.backed ih.1), ?_⟩
        rcases g.cleared.keeps with h | h
        · exact h
        · exact h.1.trans ih.2
  | random sh sh' h1 hl h2 ih =>
    unfold Variable.initRandom at h2
    split at h2
    · cases h2
    · rename_i f hf
      split at h2
      · cases h2
      · cases h2
        have g := Variable.newGlobal_spec _ _ f (hs h1).pos hf
        refine ⟨Variable.putVar_backed _ _ _ _ (g.cleared.backed ih.1), ?_⟩
        rcases g.cleared.keeps with h | h
        · exact h
        · exact h.1.trans ih.2
  | step sh sh' op b h1 _ h2 ih =>
    obtain ⟨h3, h4⟩ := Variable.step_cmdhash seed sh sh' op b (hs h1) ih.1 h2
    refine ⟨h4, ?_⟩
    rcases h3 with h | h
    · exact h
    · exact h.1.trans ih.2

/-- The command table does not matter for the consistency of variables. -/
theorem saneC_cmdhash {sh : Shell} (h : Variable.SaneC sh) (m : Map Word) :
    Variable.SaneC { sh with cmdhash := m } := ⟨h.1, h.2, h.3, h.4, h.5⟩

theorem getCommandPath_scopes (exec : Word → Bool) (sh sh' : Shell) (name : Word) (force : Bool)
    (r : Option Word) (h : getCommandPath exec sh name force = some (sh', r)) :
    ∃ m, sh' = { sh with cmdhash := m } := by
  unfold getCommandPath at h
  have key : ∀ {sh' r}, searchDirs exec sh name = some (sh', r) → ∃ m, sh' = { sh with cmdhash := m } := by
    unfold searchDirs
    intro sh' r h
    split at h
    · split at h
      · cases h; exact ⟨_, rfl⟩
      · cases h
    · cases h; exact ⟨_, rfl⟩
  split at h
  · exact key h
  · split at h
    · split at h
      · cases h; exact ⟨sh.cmdhash, rfl⟩
      · exact key h
    · exact key h

theorem history_sane {seed : Word → Bool} {start : Shell} {h : List Event} {sh : Shell}
    (hh : History seed start h sh) : Variable.SaneC sh ∧ Backed sh.scopes := by
  induction hh with
  | start h => exact ⟨(reachable_start h).1, (reachable_start h).2.1⟩
  | event h sh sh' e r _ he ih =>
    cases e with
    | change op =>
      simp only [runEvent, Option.map_eq_some_iff] at he
      obtain ⟨⟨sh1, b⟩, h1, h2⟩ := he
      cases h2
      exact ⟨Variable.step_sane seed sh _ op b ih.1 h1,
        (Variable.step_cmdhash seed sh _ op b ih.1 ih.2 h1).2⟩
    | lookup name force exec =>
      obtain ⟨m, rfl⟩ := getCommandPath_scopes _ _ _ _ _ _ he
      exact ⟨saneC_cmdhash ih.1 m, ih.2⟩
    | forget name => cases he; exact ⟨saneC_cmdhash ih.1 _, ih.2⟩
    | forgetAll => cases he; exact ⟨saneC_cmdhash ih.1 _, ih.2⟩

theorem history_unique {seed : Word → Bool} {start : Shell} {h : List Event} {sh sh' : Shell}
    (h1 : History seed start h sh) (h2 : History seed start h sh') : sh = sh' := by
  induction h1 generalizing sh' with
  | start _ => cases h2; rfl
  | event h s s' e r _ he ih =>
    cases h2 with
    | event _ t _ _ r' ht he' =>
      have := ih ht
      subst this
      rw [he] at he'
      cases he'
      rfl

theorem foundBefore_mono {seed : Word → Bool} {start : Shell} {h : List Event} {sh sh' : Shell}
    {e : Event} {name p : Word} (hh : History seed start h sh) (hh' : History seed start (e :: h) sh')
    (hf : ¬Forgets name e) (hd : searched sh' = searched sh)
    (hb : FoundBefore seed start h name p) : FoundBefore seed start (e :: h) name p := by
  obtain ⟨later, earlier, force, exec, sh0, rfl, h1, h2, h3, h4⟩ := hb
  refine ⟨e :: later, earlier, force, exec, sh0, rfl, h1, h2, ?_, ?_⟩
  · intro x hx
    rw [List.mem_cons] at hx
    rcases hx with rfl | hx
    · exact hf
    · exact h3 x hx
  · intro l1 l2 sh1 hl hs1
    cases l1 with
    | nil =>
      simp only [List.nil_append] at hl
      subst hl
      rw [history_unique hs1 hh', hd]
      exact h4 [] later sh rfl hh
    | cons x l1 =>
      simp only [List.cons_append, List.cons.injEq] at hl
      exact h4 l1 l2 sh1 hl.2 hs1

/-- **C33 (memory).**  Whatever is remembered for a name without slash at any time was found as the
first match by a search since which the directories to search have not changed and the command has
not been forgotten. -/
theorem C33_remembered (seed : Word → Bool) (start : Shell) (h : List Event) (sh : Shell)
    (hh : History seed start h sh) (name p : Word) (hs : '/' ∉ name)
    (hm : get sh.cmdhash name = some p) : FoundBefore seed start h name p := by
  induction hh with
  | start hr =>
    rw [(reachable_start hr).2.2] at hm
    cases hm
  | event h sh sh' e r hh he ih =>
    have hh' := History.event h sh sh' e r hh he
    obtain ⟨hsane, hback⟩ := history_sane hh
    cases e with
    | change op =>
      simp only [runEvent, Option.map_eq_some_iff] at he
      obtain ⟨⟨sh1, b⟩, h1, h2⟩ := he
      cases h2
      rcases (Variable.step_cmdhash seed sh _ op b hsane hback h1).1 with h3 | ⟨h3, h4⟩
      · rw [h3] at hm; cases hm
      · rw [h3] at hm
        exact foundBefore_mono hh hh' (fun h => h) (by unfold searched; rw [h4]) (ih hm)
    | forget n =>
      cases he
      simp only [Variable.get_remove] at hm
      split at hm
      · cases hm
      · rename_i hne
        exact foundBefore_mono hh hh' (fun h => hne h.symm) rfl (ih hm)
    | forgetAll => cases he; cases hm
    | lookup n force exec =>
      have hd : searched sh' = searched sh := by
        obtain ⟨m, rfl⟩ := getCommandPath_scopes _ _ _ _ _ _ he
        rfl
      by_cases hn : n = name
      · subst hn
        simp only [runEvent] at he
        rw [getCommandPath_eq exec sh n hs] at he
        simp only [Option.some.injEq] at he
        have fresh : searchResult exec sh n = (sh', r) →
            FoundBefore seed start (.lookup n force exec :: h) n p := by
          intro hres
          unfold searchResult at hres
          split at hres
          · rename_i path hw
            cases hres
            simp only [Variable.get_put, if_true] at hm
            cases hm
            have hne : n ≠ [] := by rintro rfl; cases hw
            refine ⟨[], h, force, exec, sh, rfl, hh, (which_first exec sh n hne hs p).mp hw,
              fun x hx => (by cases hx), ?_⟩
            intro l1 l2 sh1 hl hs1
            have : l2 = [] := by
              cases l1 with
              | nil => exact hl.symm
              | cons x l1 => cases hl
            subst this
            rw [List.nil_append] at hs1
            rw [history_unique hs1 hh', hd]
          · cases hres
            simp only [Variable.get_remove, if_true] at hm
            cases hm
        cases force with
        | true => exact fresh he
        | false =>
          simp only [Bool.false_eq_true, if_false] at he
          split at he
          · split at he
            · cases he
              exact foundBefore_mono hh hh' (fun h => h) rfl (ih hm)
            · exact fresh he
          · exact fresh he
      · have : get sh.cmdhash name = some p := by
          simp only [runEvent, getCommandPath] at he
          have key : ∀ {sh' r}, searchDirs exec sh n = some (sh', r) →
              get sh'.cmdhash name = get sh.cmdhash name := by
            unfold searchDirs
            intro sh' r h
            split at h
            · split at h
              · cases h; simp only [Variable.get_put]; rw [if_neg fun h => hn h.symm]
              · cases h
            · cases h; simp only [Variable.get_remove]; rw [if_neg fun h => hn h.symm]
          split at he
          · rw [key he] at hm; exact hm
          · split at he
            · split at he
              · cases he; exact hm
              · rw [key he] at hm; exact hm
            · rw [key he] at hm; exact hm
        exact foundBefore_mono hh hh' (fun h => h) hd (ih this)

/-- **C33 (lookup).**  At any time in any history, the search for a command name gives either a
remembered absolute pathname, which names an executable regular file now and was the first match in
the directories that are still the ones to search; or what a search of the directories gives now. -/
theorem C33_lookup (seed : Word → Bool) (start : Shell) (h : List Event) (sh : Shell)
    (hh : History seed start h sh) (exec : Word → Bool) (name : Word) (hn : name ≠ []) (hs : '/' ∉ name) :
    ∃ sh' r, getCommandPath exec sh name false = some (sh', r) ∧
      ((∃ p, r = some p ∧ p.head? = some '/' ∧ exec p = true ∧ FoundBefore seed start h name p) ∨
        ∀ p, r = some p ↔ FirstMatch exec (searched sh) name p) := by
  rw [getCommandPath_eq exec sh name hs]
  simp only [Bool.false_eq_true, if_false]
  refine ⟨_, _, rfl, ?_⟩
  cases hm : get sh.cmdhash name with
  | none => exact Or.inr (searchResult_first exec sh name hn hs)
  | some path =>
    simp only
    split
    · rename_i hc
      simp only [Bool.and_eq_true, decide_eq_true_eq] at hc
      exact Or.inl ⟨path, rfl, hc.1, hc.2, C33_remembered seed start h sh hh name path hs hm⟩
    · exact Or.inr (searchResult_first exec sh name hn hs)

/-- **C33 (place).**  So a command that is found is an executable regular file in a directory of the
current search path. -/
theorem C33_place (seed : Word → Bool) (start : Shell) (h : List Event) (sh : Shell)
    (hh : History seed start h sh) (exec : Word → Bool) (name : Word) (hn : name ≠ []) (hs : '/' ∉ name)
    (sh' : Shell) (p : Word) (hr : getCommandPath exec sh name false = some (sh', some p)) :
    exec p = true ∧ ∃ dir ∈ searched sh, In dir name p := by
  obtain ⟨s, r, h1, h2⟩ := C33_lookup seed start h sh hh exec name hn hs
  rw [hr] at h1
  cases h1
  rcases h2 with ⟨q, hq, _, hx, hb⟩ | h2
  · cases hq
    obtain ⟨later, earlier, force, exec0, sh0, rfl, h1, ⟨b, d, a, h3, h4, _⟩, _, h5⟩ := hb
    refine ⟨hx, d, ?_, h4⟩
    rw [h5 [] later sh rfl hh, h3]
    simp
  · obtain ⟨b, d, a, h3, h4, h5, _⟩ := (h2 p).mp rfl
    exact ⟨h5, d, by rw [h3]; simp, h4⟩

/-! ### An example: the remembered command is used, and forgotten when `PATH` changes -/

/-- A shell started with `PATH=/a:/b`. -/
def exampleStart : Shell := Variable.initEnvironment [("PATH".toList, "/a:/b".toList)]

/-- Only `/b/ls` exists. -/
def onlyB (p : Word) : Bool := p == "/b/ls".toList

/-- Both files exist. -/
def bothFiles (p : Word) : Bool := p == "/b/ls".toList || p == "/a/ls".toList

/-- The results of the searches in a history. -/
def results (seed : Word → Bool) : Shell → List Event → Option (List (Option Word))
  | _, [] => some []
  | sh, e :: es =>
    match runEvent seed sh e with
    | none => none
    | some (sh', r) => (results seed sh' es).map (r :: ·)

/-- `ls` is found in `/b`, still taken from there when `/a/ls` has been made, and taken from `/a` after
`PATH` has been set once more. -/
example : results (fun _ => false) exampleStart
    [.lookup "ls".toList false onlyB, .lookup "ls".toList false bothFiles,
     .change (.assign "PATH".toList (.scalar (some "/a:/b".toList)) .global false),
     .lookup "ls".toList false bothFiles] =
    some [some "/b/ls".toList, some "/b/ls".toList, none, some "/a/ls".toList] := by
  decide +kernel

/-- The hypotheses of the theorems are met: there is a history with two searches. -/
example : ∃ sh, History (fun _ => false) exampleStart
    [.lookup "ls".toList false bothFiles, .lookup "ls".toList false onlyB] sh ∧
    get sh.cmdhash "ls".toList = some "/b/ls".toList :=
  ⟨_, .event _ _ _ _ _ (.event _ _ _ _ _ (.start (.start _ (by decide))) rfl) rfl, by decide +kernel⟩

/-! ## The order of the search -/

/-- What an external search finds. -/
def infoOf (bi : Bool) : Option Word → CommandInfo
  | none => .none
  | some path => if bi then .builtin .substitutive else .external path

theorem searchExternal_eq (exec : Word → Bool) (sh sh' : Shell) (name : Word) (found : Option Word)
    (hs : '/' ∉ name) (hf : getCommandPath exec sh name false = some (sh', found)) (bi : Bool) :
    searchExternal exec none sh name bi ⟨true, true, false, false, false, true⟩ =
      some (sh', infoOf bi found) := by
  unfold searchExternal
  rw [if_neg (by simpa using hs)]
  simp only [Bool.true_or, if_true, Bool.false_eq_true, if_false]
  rw [hf]
  cases found with
  | none => rfl
  | some path => cases bi <;> rfl

theorem searchExternal_not (exec : Word → Bool) (sh : Shell) (name : Word) (bi : Bool) :
    searchExternal exec none sh name bi ⟨false, true, true, false, false, false⟩ = some (sh, .none) := by
  unfold searchExternal
  split <;> simp

/-- **C41 (names without slash).**  A command name without a slash stands for a special built-in, or
else a function, or else a built-in of another kind, or else the external command that is found in
`PATH`; a built-in that substitutes an external command is used only if that command is found, and in
the POSIXly-correct mode extension built-ins are not used at all.  No assertion fails. -/
theorem C41_order (exec : Word → Bool) (builtins : Word → Option BuiltinType) (functions : Word → Bool)
    (posix : Bool) (sh : Shell) (name : Word) (hs : '/' ∉ name) :
    ∃ sh' found info, getCommandPath exec sh name false = some (sh', found) ∧
      (resolve exec builtins functions posix sh name).map (·.2) = some info ∧
      info = Spec.command builtins functions posix name found := by
  obtain ⟨⟨sh', found⟩, hf⟩ : ∃ p, getCommandPath exec sh name false = some p :=
    ⟨_, getCommandPath_eq exec sh name hs false⟩
  refine ⟨sh', found, Spec.command builtins functions posix name found, hf, ?_, rfl⟩
  have hc : name.contains '/' = false := by simpa using hs
  have hx := searchExternal_eq exec sh sh' name found hs hf
  have hy := searchExternal_not exec sh name
  unfold resolve Spec.command
  have h1 : searchCommand exec builtins functions none posix sh name
      ⟨false, true, true, false, false, false⟩ = some (sh,
        if builtins name = some .special then .builtin .special
        else if functions name = true then .function
        else if builtins name = some .mandatory then .builtin .mandatory
        else if builtins name = some .elective then .builtin .elective
        else if builtins name = some .extension ∧ posix = false then .builtin .extension
        else .none) := by
    unfold searchCommand
    simp only [hc, Bool.not_false, Bool.true_and, Bool.and_true, Bool.true_or]
    rw [if_true]
    cases hb : builtins name with
    | none => cases functions name <;> simp [hy]
    | some t =>
      cases t <;> cases functions name <;> cases posix <;> simp [hy]
  have h2 : functions name = false ∨ builtins name = some .special → 
    searchCommand exec builtins functions none posix sh name
      ⟨true, true, false, false, false, true⟩ = 
        if builtins name = some .special then some (sh, .builtin .special)
        else if builtins name = some .mandatory then some (sh, .builtin .mandatory)
        else if builtins name = some .elective then some (sh, .builtin .elective)
        else if builtins name = some .extension ∧ posix = false then some (sh, .builtin .extension)
        else some (sh', infoOf (builtins name = some .substitutive) found) := by
    intro _
    unfold searchCommand
    simp only [hc, Bool.not_false, Bool.true_and, Bool.false_and]
    rw [if_true]
    cases hb : builtins name with
    | none => simp [hx]
    | some t => cases t <;> cases posix <;> simp [hx]
  rw [h1]
  by_cases k1 : builtins name = some .special
  · simp [k1]
  by_cases k2 : functions name = true
  · simp [k1, k2]
  by_cases k3 : builtins name = some .mandatory
  · simp [k2, k3]
  by_cases k4 : builtins name = some .elective
  · simp [k2, k4]
  by_cases k5 : builtins name = some .extension ∧ posix = false
  · simp [k2, k5]
  simp only [if_neg k1, if_neg k2, if_neg k3, if_neg k4, if_neg k5]
  rw [h2 (Or.inl (by simpa using k2)), if_neg k1, if_neg k3, if_neg k4, if_neg k5]
  cases found with
  | none => simp [infoOf, hs]
  | some path =>
    by_cases k6 : builtins name = some .substitutive
    · simp [infoOf, k6]
    · simp [infoOf, k6]

/-- **C41 (names with a slash).**  A name with a slash is the pathname of an external command. -/
theorem C41_slash (exec : Word → Bool) (builtins : Word → Option BuiltinType) (functions : Word → Bool)
    (posix : Bool) (sh : Shell) (name : Word) (hs : '/' ∈ name) :
    resolve exec builtins functions posix sh name = some (sh, .external name) := by
  have hc : name.contains '/' = true := by simpa using hs
  unfold resolve searchCommand searchExternal
  simp only [hc, Bool.not_true, Bool.false_and]
  cases exec name <;> simp

end Yash.Path
