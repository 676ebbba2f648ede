import Verif.Command.Spec
import Verif.Path.WhichProps
import Verif.Parser.SimpleCmd
import Verif.Alias.BuiltinProps
/-! # Property C88: `command -v` and `type` tell what would be executed -/
set_option autoImplicit false

namespace Yash.Command

open Spec
open Yash.Variable (Word Shell get put remove getPathArray)
open Yash.Path (BuiltinType CommandInfo SearchType searchCommand searchExternal which whichLoop getCommandPath getCommandPath_eq searchResult getvar resolve whichLoop_first
  whichPath_in whichPath)

/-- The external command, without the check of names with a slash. -/
def Located (E : Env) (check std : Bool) (sh : Shell) (name : Word) (sh' : Shell) (found : Option Word) : Prop :=
  if '/' ∈ name then sh' = sh ∧ found = if check = false ∨ E.exec name = true then some name else none
  else if std = true then sh' = sh ∧ found = which name E.stdpath E.exec
  else getCommandPath E.exec sh name false = some (sh', found)

theorem located_exists (E : Env) (check std : Bool) (sh : Shell) (name : Word) : ∃ sh' found, Located E check std sh name sh' found := by
  unfold Located
  split
  · exact ⟨_, _, rfl, rfl⟩
  · rename_i hs
    split
    · exact ⟨_, _, rfl, rfl⟩
    · exact ⟨_, _, getCommandPath_eq E.exec sh name hs false⟩

theorem located_lookup {E : Env} {std : Bool} {sh : Shell} {name : Word} {sh' : Shell} {found : Option Word} (h : Located E true std sh name sh' found) :
    Lookup E std sh name sh' found := by
  unfold Located at h
  unfold Lookup
  split
  · rename_i hs
    simpa [hs] using h
  · rename_i hs
    rw [if_neg hs] at h
    split
    · rename_i hstd
      rw [if_pos hstd] at h
      refine ⟨h.1, ?_, ?_⟩
      · rintro rfl; exact h.2
      · intro hn p
        rw [h.2]
        unfold which
        split
        · exact absurd rfl hn
        · exact absurd List.mem_cons_self hs
        · cases E.stdpath with
          | some dirs => exact whichLoop_first E.exec name dirs p
          | none =>
            simp only [Option.getD_none, reduceCtorEq, false_iff]
            rintro ⟨b, d, a, h, _⟩
            simp at h
    · rename_i hstd
      rw [if_neg hstd] at h
      exact h

/-- The kinds that a search is for. -/
def askedBy (t : SearchType) : Kind → Bool
  | .builtin => t.builtin
  | .function => t.function
  | .external => t.external
  | _ => false

/-- What the name stands for, without keywords and aliases. -/
def commandThings (E : Env) (name : Word) (sf : Bool) (found : Option Word) : List (Kind × Thing) :=
  only ('/' ∉ name ∧ E.builtins name = some .special) .builtin (.builtin .special) ++
  only (('/' ∉ name ∨ sf = true) ∧ E.functions name = true) .function .function ++
  only ('/' ∉ name ∧ E.builtins name = some .mandatory) .builtin (.builtin .mandatory) ++
  only ('/' ∉ name ∧ E.builtins name = some .elective) .builtin (.builtin .elective) ++
  only ('/' ∉ name ∧ E.builtins name = some .extension ∧ E.config.posix = false) .builtin (.builtin .extension) ++
  (found.toList.flatMap fun p => only ('/' ∉ name ∧ E.builtins name = some .substitutive) .builtin (.substitutive p)) ++
  (found.toList.flatMap fun p => [(.external, .external p)])

theorem only_kind {c : Prop} [Decidable c] {k : Kind} {t : Thing} {x : Kind × Thing} (h : x ∈ only c k t) : x.1 = k := by
  unfold only at h
  split at h
  · simp at h; rw [h]
  · simp at h

theorem command_kind {E : Env} {name : Word} {sf : Bool} {found : Option Word} {x : Kind × Thing} (h : x ∈ commandThings E name sf found) :
    x.1 = .builtin ∨ x.1 = .function ∨ x.1 = .external := by
  unfold commandThings at h
  simp only [List.mem_append, List.mem_flatMap, List.mem_singleton] at h
  rcases h with (((((h | h) | h) | h) | h) | ⟨p, _, h⟩) | ⟨p, _, h⟩
  · exact .inl (only_kind h)
  · exact .inr (.inl (only_kind h))
  · exact .inl (only_kind h)
  · exact .inl (only_kind h)
  · exact .inl (only_kind h)
  · exact .inl (only_kind h)
  · rw [h]; exact .inr (.inr rfl)

theorem find_congr {α : Type} {p q : α → Bool} : ∀ {l : List α}, (∀ x ∈ l, p x = q x) → l.find? p = l.find? q
  | [], _ => rfl
  | x :: l, h => by
    rw [List.find?_cons, List.find?_cons, h x (by simp), find_congr fun y hy => h y (by simp [hy])]

theorem things_find {E : Env} {name : Word} {sf : Bool} {found : Option Word} {asked : Kind → Bool} (hk : asked .keyword = true → name ∉ Parser.Spec.keywords)
    (ha : asked .alias = true → ∀ a, E.aliases.find? (fun a => a.name == name) = some a → a.isGlobal = true) :
    first E name sf found asked = ((commandThings E name sf found).find? fun x => asked x.1).map (·.2) := by
  unfold first things commandThings
  have h1 : (only (name ∈ Parser.Spec.keywords) .keyword .keyword).find? (fun x => asked x.1) = none := by
    unfold only
    split
    · cases hq : asked .keyword with
      | false => simp [hq]
      | true => exact absurd ‹_› (hk hq)
    · rfl
  have h2 : ((E.aliases.find? fun a => a.name == name).toList.flatMap fun a => only (a.isGlobal = false) .alias (.alias a)).find? (fun x => asked x.1) = none := by
    cases hf : E.aliases.find? fun a => a.name == name with
    | none => rfl
    | some a =>
      unfold only
      cases hq : asked .alias with
      | false => cases hg : a.isGlobal <;> simp [hq, hg]
      | true => simp [ha hq a hf]
  simp only [List.append_assoc, List.find?_append, h1, h2, Option.none_or]

theorem search_spec {E : Env} {sh sh1 : Shell} {name : Word} {t : SearchType} {found : Option Word} (hl : Located E t.check t.stdpath sh name sh1 found)
    (hall : t.all = true ∨ (t.external = true ∧ t.builtin = true)) :
    ∃ sh', search E sh name t = some (sh', runs (first E name t.all found (askedBy t))) ∧ (sh' = sh ∨ sh' = sh1) ∧
      (∀ p, first E name t.all found (askedBy t) = some (.substitutive p) → sh' = sh1 ∧ found = some p ∧ '/' ∉ name) := by
  obtain ⟨te, tb, tf, ta, ts, tc⟩ := t
  rw [things_find (by simp [askedBy]) (by simp [askedBy])]
  unfold commandThings
  unfold Located at hl
  unfold search searchCommand searchExternal
  by_cases hs : '/' ∈ name
  · have hc : name.contains '/' = true := by simpa using hs
    rw [if_pos hs] at hl
    obtain ⟨rfl, rfl⟩ := hl
    simp only [hc, hs]
    cases te <;> cases tf <;> cases ta <;> cases tc <;> cases hf : E.functions name <;> cases hx : E.exec name <;>
      simp [only, runs, askedBy] at hall ⊢
  · have hc : name.contains '/' = false := by simpa using hs
    rw [if_neg hs] at hl
    have hg : (if ts = true then some (sh, which name E.stdpath E.exec) else getCommandPath E.exec sh name false) = some (sh1, found) := by
      split at hl
      · obtain ⟨rfl, rfl⟩ := hl
        rename_i h
        rw [if_pos h]
      · rename_i h
        rw [if_neg h, hl]
    simp only [hc, hs]
    simp only [hg]
    cases hb : E.builtins name with
    | none =>
      cases te <;> cases tb <;> cases tf <;> cases ta <;> cases hf : E.functions name <;> cases found <;> simp [only, runs, askedBy] at hall ⊢
    | some t =>
      cases t <;> cases te <;> cases tb <;> cases tf <;> cases ta <;> cases hf : E.functions name <;> cases found <;> cases hp : E.config.posix <;>
        simp [only, runs, askedBy] at hall ⊢

theorem again {E : Env} {std check : Bool} {sh sh1 : Shell} {name p : Word} (hs : '/' ∉ name) (hl : Located E check std sh name sh1 (some p)) (t : SearchType) (ht : t.stdpath = std) :
    substitutePath E sh1 name t = some (sh1, some p) := by
  unfold Located at hl
  unfold substitutePath
  rw [if_neg hs] at hl
  rw [ht]
  split
  · rename_i h
    rw [if_pos h] at hl
    rw [← hl.2]
  · rename_i h
    rw [if_neg h] at hl
    rw [getCommandPath_eq E.exec _ name hs] at hl ⊢
    simp only [Bool.false_eq_true, if_false, Option.some.injEq] at hl ⊢
    have key : ∀ {sh sh1 : Shell}, searchResult E.exec sh name = (sh1, some p) →
        get sh1.cmdhash name = some p ∧ searchResult E.exec sh1 name = (sh1, some p) := by
      intro sh sh1 h
      unfold searchResult at h
      split at h
      · rename_i path hw
        simp only [Prod.mk.injEq, Option.some.injEq] at h
        obtain ⟨rfl, rfl⟩ := h
        refine ⟨by simp [Variable.get_put], ?_⟩
        unfold searchResult
        simp only [hw]
        simp [put, remove, List.filter_filter]
      · simp at h
    have fin : get sh1.cmdhash name = some p ∧ (searchResult E.exec sh1 name = (sh1, some p) ∨ (p.head? = some '/' && E.exec p) = true) := by
      split at hl
      · rename_i path hm
        split at hl
        · rename_i hx
          cases hl
          exact ⟨hm, .inr hx⟩
        · exact ⟨(key hl).1, .inl (key hl).2⟩
      · exact ⟨(key hl).1, .inl (key hl).2⟩
    rw [fin.1]
    simp only
    split
    · rfl
    · rcases fin.2 with h | h
      · exact h
      · exact absurd h ‹_›

theorem getvar_same {E : Env} {check std : Bool} {sh sh1 : Shell} {name : Word} {found : Option Word} (hl : Located E check std sh name sh1 found) (n : Word) :
    getvar sh1 n = getvar sh n := by
  unfold Located at hl
  split at hl
  · rw [hl.1]
  · split at hl
    · rw [hl.1]
    · obtain ⟨m, rfl⟩ := Path.getCommandPath_scopes _ _ _ _ _ _ hl
      rfl

theorem absolute_of {E : Env} (hc : E.cwd ≠ some []) {sh sh' : Shell} (hg : ∀ n, getvar sh' n = getvar sh n) (path : Word) :
    Absolute E sh path (absolutePath E sh' path) := by
  unfold Absolute absolutePath
  by_cases hp : path.head? = some '/'
  · rw [if_pos hp]
    left
    refine ⟨?_, rfl⟩
    cases path with
    | nil => simp at hp
    | cons c r => simp at hp; exact ⟨r, by rw [hp]⟩
  · rw [if_neg hp]
    right
    refine ⟨by rintro r rfl; simp at hp, ?_⟩
    rw [hg]
    have key : ∀ d : Word, d ≠ [] → Path.Spec.In d path ((if (d.isEmpty || d.getLast? != some '/') = true then d ++ ['/'] else d) ++ path) := by
      intro d hd
      have := whichPath_in d path
      unfold whichPath at this
      have he : d.isEmpty = false := by simpa using hd
      rw [if_neg (by simp [he])] at this
      simp only [he, Bool.false_or, bne_iff_ne, ne_eq]
      split at this
      · rename_i h
        simpa [h] using this
      · rename_i h
        simpa [h] using this
    have hcwd : ∃ dir, dir ≠ [] ∧ E.cwd.getD ['.'] = dir ∧ (E.cwd = some dir ∨ (E.cwd = none ∧ dir = ['.'])) := by
      cases hx : E.cwd with
      | none => exact ⟨['.'], by simp, rfl, .inr ⟨rfl, rfl⟩⟩
      | some d => exact ⟨d, by rintro rfl; exact hc hx, rfl, .inl rfl⟩
    obtain ⟨dir, hd, hd1, hd2⟩ := hcwd
    cases hw : getvar sh "PWD".toList with
    | none =>
      refine ⟨dir, ?_, hd, .inr ⟨by simp, hd2⟩⟩
      simpa [hd1] using key dir hd
    | some pwd =>
      cases hsd : E.sameAsDot pwd with
      | false =>
        refine ⟨dir, ?_, hd, .inr ⟨by rintro d h _; cases h; exact hsd, hd2⟩⟩
        simpa [hsd, hd1] using key dir hd
      | true =>
        cases pwd with
        | nil =>
          refine ⟨dir, ?_, hd, .inr ⟨by rintro d h hn; cases h; exact absurd rfl hn, hd2⟩⟩
          simpa [hsd, hd1] using key dir hd
        | cons c r =>
          refine ⟨c :: r, ?_, by simp, .inl ⟨rfl, hsd⟩⟩
          simpa [hsd] using key (c :: r) (by simp)

/-- What is asked for by the flags of `print_command_info`. -/
def askedFor (t : SearchType) (aliases keywords : Bool) : Kind → Bool
  | .keyword => keywords
  | .alias => aliases
  | k => askedBy t k

theorem first_keyword {E : Env} {name : Word} {sf : Bool} {found : Option Word} {asked : Kind → Bool} (hk : asked .keyword = true) (h : name ∈ Parser.Spec.keywords) :
    first E name sf found asked = some .keyword := by
  unfold first things
  simp only [only, if_pos h, List.cons_append, List.find?_cons, hk, Option.map_some]

theorem first_alias {E : Env} {name : Word} {sf : Bool} {found : Option Word} {asked : Kind → Bool} (hk : asked .keyword = true → name ∉ Parser.Spec.keywords)
    (ha : asked .alias = true) {a : Alias.Alias} (hf : E.aliases.find? (fun a => a.name == name) = some a) (hg : a.isGlobal = false) :
    first E name sf found asked = some (.alias a) := by
  unfold first things
  have h1 : (only (name ∈ Parser.Spec.keywords) .keyword .keyword).find? (fun x => asked x.1) = none := by
    unfold only
    split
    · cases hq : asked .keyword with
      | false => simp [hq]
      | true => exact absurd ‹_› (hk hq)
    · rfl
  simp only [List.append_assoc, List.find?_append, h1, Option.none_or, hf]
  simp [only, hg, ha]

theorem first_command {E : Env} {name : Word} {sf : Bool} {found : Option Word} {t : SearchType} {aliases keywords : Bool}
    (hk : keywords = true → name ∉ Parser.Spec.keywords)
    (ha : aliases = true → ∀ a, E.aliases.find? (fun a => a.name == name) = some a → a.isGlobal = true) :
    first E name sf found (askedFor t aliases keywords) = first E name sf found (askedBy t) := by
  rw [things_find (asked := askedFor t aliases keywords) hk ha, things_find (asked := askedBy t) (by simp [askedBy]) (by simp [askedBy])]
  congr 1
  refine find_congr fun x hx => ?_
  rcases command_kind hx with h | h | h <;> rw [h] <;> rfl

theorem only_thing {c : Prop} [Decidable c] {k : Kind} {t : Thing} {x : Kind × Thing} (h : x ∈ only c k t) : x.2 = t := by
  unfold only at h
  split at h
  · simp at h; rw [h]
  · simp at h

theorem first_sub {E : Env} {name : Word} {sf : Bool} {found : Option Word} {t : SearchType} {x : Thing} (h : first E name sf found (askedBy t) = some x) :
    x ≠ .keyword ∧ (∀ a, x ≠ .alias a) ∧ x ≠ .builtin .substitutive := by
  rw [things_find (by simp [askedBy]) (by simp [askedBy])] at h
  obtain ⟨y, hy, rfl⟩ := Option.map_eq_some_iff.1 h
  have hm := List.mem_of_find?_eq_some hy
  unfold commandThings at hm
  simp only [List.mem_append, List.mem_flatMap, List.mem_singleton] at hm
  rcases hm with (((((h | h) | h) | h) | h) | ⟨p, _, h⟩) | ⟨p, _, h⟩
  all_goals first
    | (rw [only_thing h]; exact ⟨by simp, by simp, by simp⟩)
    | (rw [h]; exact ⟨by simp, by simp, by simp⟩)

theorem keyword_iff (name : Word) : (Syntax.reservedWord name != .word) = decide (name ∈ Parser.Spec.keywords) := by
  by_cases h : name ∈ Parser.Spec.keywords
  · have := (Parser.reservedWord_keyword h).1
    simp [h, this]
  · rw [Parser.reservedWord_word h]
    simp [h]

theorem info_spec {E : Env} (hc : E.cwd ≠ some []) (sh : Shell) (name : Word) {t : SearchType} (aliases keywords human : Bool) (hcheck : t.check = true)
    (hall : t.all = true ∨ (t.external = true ∧ t.builtin = true)) :
    ∃ sh' out ok, printCommandInfo E sh name t aliases keywords human = some (sh', out, ok) ∧
      Identifies E t.stdpath t.all human (askedFor t aliases keywords) sh name sh' out ok := by
  obtain ⟨sh1, found, hl⟩ := located_exists E true t.stdpath sh name
  have hlook := located_lookup hl
  unfold printCommandInfo
  rw [keyword_iff]
  by_cases hk : keywords = true ∧ name ∈ Parser.Spec.keywords
  · rw [if_pos (by simpa using hk)]
    refine ⟨_, _, _, rfl, sh1, found, hlook, .inl rfl, ?_⟩
    rw [first_keyword (by exact hk.1) hk.2]
    refine ⟨rfl, ?_⟩
    cases human
    · exact .keyword
    · exact .keywordV
  · rw [if_neg (by simpa using hk)]
    have hk' : askedFor t aliases keywords .keyword = true → name ∉ Parser.Spec.keywords := fun h h' => hk ⟨h, h'⟩
    by_cases ha : ∃ a, aliases = true ∧ E.aliases.find? (fun a => a.name == name) = some a ∧ a.isGlobal = false
    · obtain ⟨a, ha1, ha2, ha3⟩ := ha
      have hp : ∃ out, (if aliases = true then printAlias E name human else none) = some out ∧ Line E sh name human (.alias a) out := by
        rw [if_pos ha1]
        unfold printAlias Alias.printIfDefined Alias.lookup
        rw [ha2]
        cases human
        · exact ⟨_, by simp [ha3], .alias⟩
        · exact ⟨_, by simp [ha3], .aliasV⟩
      obtain ⟨out, ho1, ho2⟩ := hp
      rw [ho1]
      refine ⟨_, _, _, rfl, sh1, found, hlook, .inl rfl, ?_⟩
      rw [first_alias hk' (by exact ha1) ha2 ha3]
      exact ⟨rfl, ho2⟩
    · have ha' : aliases = true → ∀ a, E.aliases.find? (fun a => a.name == name) = some a → a.isGlobal = true := by
        intro h a h'
        cases hg : a.isGlobal with
        | true => rfl
        | false => exact absurd ⟨a, h, h', hg⟩ ha
      have hp : (if aliases = true then printAlias E name human else none) = none := by
        split
        · rename_i h
          unfold printAlias Alias.printIfDefined Alias.lookup
          cases hf : E.aliases.find? (fun a => a.name == name) with
          | none => cases human <;> rfl
          | some a => cases human <;> simp [ha' h a hf]
        · rfl
      rw [hp]
      obtain ⟨sh', hs, hsh, hsub⟩ := search_spec (t := t) (by rw [hcheck]; exact hl) hall
      simp only [hs]
      have hfirst : first E name t.all found (askedFor t aliases keywords) = first E name t.all found (askedBy t) := first_command hk' ha'
      unfold Identifies
      have hgv : ∀ n, getvar sh' n = getvar sh n := by
        intro n
        rcases hsh with rfl | rfl
        · rfl
        · exact getvar_same hl n
      cases hq : first E name t.all found (askedBy t) with
      | none =>
        refine ⟨_, _, _, rfl, sh1, found, hlook, hsh, ?_⟩
        rw [hfirst, hq]
        exact ⟨rfl, rfl⟩
      | some thing =>
        cases thing with
        | keyword => exact absurd rfl (first_sub hq).1
        | alias a => exact absurd rfl ((first_sub hq).2.1 a)
        | builtin b =>
          cases b with
          | substitutive => exact absurd rfl (first_sub hq).2.2
          | special =>
            refine ⟨_, _, _, rfl, sh1, found, hlook, hsh, ?_⟩
            rw [hfirst, hq]
            refine ⟨rfl, ?_⟩
            cases human
            · exact .builtin
            · exact .special
          | mandatory =>
            refine ⟨_, _, _, rfl, sh1, found, hlook, hsh, ?_⟩
            rw [hfirst, hq]
            refine ⟨rfl, ?_⟩
            cases human
            · exact .builtin
            · exact .mandatory
          | elective =>
            refine ⟨_, _, _, rfl, sh1, found, hlook, hsh, ?_⟩
            rw [hfirst, hq]
            refine ⟨rfl, ?_⟩
            cases human
            · exact .builtin
            · exact .elective
          | extension =>
            refine ⟨_, _, _, rfl, sh1, found, hlook, hsh, ?_⟩
            rw [hfirst, hq]
            refine ⟨rfl, ?_⟩
            cases human
            · exact .builtin
            · exact .extension
        | substitutive p =>
          obtain ⟨rfl, rfl, hns⟩ := hsub p hq
          have := again hns hl t rfl
          simp only [runs, this]
          refine ⟨_, _, _, rfl, sh', some p, hlook, .inr rfl, ?_⟩
          rw [hfirst, hq]
          refine ⟨rfl, ?_⟩
          cases human
          · exact .substitutive
          · exact .substitutiveV
        | function =>
          refine ⟨_, _, _, rfl, sh1, found, hlook, hsh, ?_⟩
          rw [hfirst, hq]
          refine ⟨rfl, ?_⟩
          cases human
          · exact .function
          · exact .functionV
        | external path =>
          refine ⟨_, _, _, rfl, sh1, found, hlook, hsh, ?_⟩
          rw [hfirst, hq]
          refine ⟨rfl, ?_⟩
          unfold printCommandPath
          cases human
          · exact .external (absolute_of hc hgv path)
          · exact .externalV (absolute_of hc hgv path)

theorem loop_spec {E : Env} (hc : E.cwd ≠ some []) {t : SearchType} (aliases keywords human : Bool) (hcheck : t.check = true)
    (hall : t.all = true ∨ (t.external = true ∧ t.builtin = true)) : ∀ (names : List Word) (sh : Shell),
    ∃ sh' out ok, printLoop E t aliases keywords human names sh = some (sh', out, ok) ∧
      IdentifiesAll E t.stdpath t.all human (askedFor t aliases keywords) sh names sh' out ok
  | [], sh => ⟨sh, [], true, rfl, .nil⟩
  | name :: names, sh => by
    obtain ⟨sh1, out, ok, h1, h2⟩ := info_spec hc sh name aliases keywords human hcheck hall
    obtain ⟨sh2, out', ok', h3, h4⟩ := loop_spec hc aliases keywords human hcheck hall names sh1
    refine ⟨sh2, _, _, ?_, .cons h2 h4⟩
    rw [printLoop, h1]
    simp only [h3]

theorem modes_other : ∀ {l : List Char}, 'v' ∉ l → 'V' ∉ l → ∀ m, modes l m = m
  | [], _, _, _ => rfl
  | c :: l, h1, h2, m => by
    have h := modes_other (l := l) (fun h => h1 (by simp [h])) (fun h => h2 (by simp [h])) m
    unfold modes at h ⊢
    rw [List.foldl_cons, if_neg (by rintro rfl; simp at h1), if_neg (by rintro rfl; simp at h2), h]

theorem modes_append (l l' : List Char) (m : Bool × Bool) : modes (l ++ l') m = modes l' (modes l m) := by
  unfold modes
  rw [List.foldl_append]

theorem modes_verbose {isType : Bool} {letters : List Char} {human : Bool} (h : Verbose isType letters human) : modes letters (isType, isType) = (true, human) := by
  rcases h with ⟨h1, h2, rfl, rfl⟩ | ⟨b, a, rfl, h1, h2, rfl⟩ | ⟨b, a, rfl, h1, h2, rfl⟩
  · exact modes_other h1 h2 _
  · rw [modes_append]; exact modes_other h1 h2 (true, false)
  · rw [modes_append]; exact modes_other h1 h2 (true, true)

/-- `command -v`, `command -V` and `type`, for any operands: for each name in turn the line for the first thing that is asked for (everything, if none of `-abefk` is given),
and the built-in succeeds if there is one for every name. -/
theorem identified {E : Env} (hc : E.cwd ≠ some []) (sh : Shell) {isType human : Bool} {args operands : List Word} {letters : List Char}
    (hg : Given E args letters operands) (hh : '-' ∉ letters) (hv : Verbose isType letters human)
    (hn : E.config.posix = true → operands ≠ [] ∧ (isType = false → operands.length = 1)) :
    ∃ sh' out ok, commandBuiltin E isType args sh = some (.printed sh' out ok) ∧
      ((∀ k, letter k ∉ letters) → IdentifiesAll E (letters.contains 'p') false human (fun _ => true) sh operands sh' out ok) ∧
      ((∃ k, letter k ∈ letters) → IdentifiesAll E (letters.contains 'p') true human (fun k => letters.contains (letter k)) sh operands sh' out ok) := by
  obtain ⟨reports, used, hp, rfl⟩ := hg
  unfold commandBuiltin
  rw [hp]
  simp only
  rw [if_neg (by simpa using hh), modes_verbose hv]
  simp only [Bool.not_true, Bool.false_eq_true, if_false]
  generalize reports.map (fun o => o.1.short) = letters at *
  rw [if_neg ?_]
  · by_cases hd : ∃ k, letter k ∈ letters
    · have hd' : (!letters.contains 'b' && !letters.contains 'e' && !letters.contains 'f' && !letters.contains 'a' && !letters.contains 'k') = false := by
        obtain ⟨k, hk⟩ := hd
        cases k <;> simp [letter] at hk <;> simp [hk]
      simp only [hd', Bool.false_eq_true, if_false, Bool.false_or]
      obtain ⟨sh', out, ok, h1, h2⟩ := loop_spec hc (t := ⟨letters.contains 'e', letters.contains 'b', letters.contains 'f', true, letters.contains 'p', true⟩)
        (letters.contains 'a') (letters.contains 'k') human rfl (.inl rfl) operands sh
      rw [h1]
      refine ⟨sh', out, ok, rfl, fun h => absurd hd (by simpa using h), fun _ => ?_⟩
      rw [show (fun k => letters.contains (letter k)) = askedFor ⟨letters.contains 'e', letters.contains 'b', letters.contains 'f', true, letters.contains 'p', true⟩
        (letters.contains 'a') (letters.contains 'k') by funext k; cases k <;> rfl]
      exact h2
    · have hd' : (!letters.contains 'b' && !letters.contains 'e' && !letters.contains 'f' && !letters.contains 'a' && !letters.contains 'k') = true := by
        have h : ∀ k, letters.contains (letter k) = false := by simpa using hd
        have h1 := h .builtin
        have h2 := h .external
        have h3 := h .function
        have h4 := h .alias
        have h5 := h .keyword
        simp only [letter] at h1 h2 h3 h4 h5
        rw [h1, h2, h3, h4, h5]; rfl
      simp only [hd', if_true, Bool.true_or]
      obtain ⟨sh', out, ok, h1, h2⟩ := loop_spec hc (t := ⟨true, true, true, false, letters.contains 'p', true⟩) true true human rfl (.inr ⟨rfl, rfl⟩) operands sh
      rw [h1]
      refine ⟨sh', out, ok, rfl, fun _ => ?_, fun h => absurd h hd⟩
      rw [show (fun _ => true) = askedFor ⟨true, true, true, false, letters.contains 'p', true⟩ true true by funext k; cases k <;> rfl]
      exact h2
  · intro h
    simp only [Bool.and_eq_true, Bool.or_eq_true, decide_eq_true_eq, Bool.not_eq_true'] at h
    obtain ⟨h1, h2⟩ := h
    obtain ⟨h3, h4⟩ := hn h1
    have : operands.length ≠ 0 := by simpa using h3
    rcases h2 with h2 | ⟨h2, h5⟩
    · omega
    · have := h4 h2; omega

/-- `command [-befp] name`: the first thing of the kinds that are asked for (built-ins and external commands, if none of `-bef` is given) is executed. A name with a slash
is executed as an external command, if that is asked for, whether or not there is such a file. -/
theorem executed {E : Env} (sh : Shell) {args rest : List Word} {name : Word} {letters : List Char} (hg : Given E args letters (name :: rest))
    (hh : '-' ∉ letters) (hv : 'v' ∉ letters) (hV : 'V' ∉ letters) (ha : 'a' ∉ letters) (hk : 'k' ∉ letters) :
    ∃ sh' sh1 found info, commandBuiltin E false args sh = some (.run sh' info (name :: rest)) ∧ (sh' = sh ∨ sh' = sh1) ∧
      ('/' ∈ name → sh1 = sh ∧ found = some name) ∧ ('/' ∉ name → Lookup E (letters.contains 'p') sh name sh1 found) ∧
      ('b' ∉ letters → 'e' ∉ letters → 'f' ∉ letters → info = runs (first E name false found fun k => k = .builtin || k = .external)) ∧
      ('b' ∈ letters ∨ 'e' ∈ letters ∨ 'f' ∈ letters → info = runs (first E name true found fun k => letters.contains (letter k))) := by
  obtain ⟨reports, used, hp, rfl⟩ := hg
  unfold commandBuiltin
  rw [hp]
  simp only
  rw [if_neg (by simpa using hh), modes_other hv hV]
  simp only [Bool.not_false, if_true]
  generalize reports.map (fun o => o.1.short) = letters at *
  have ha' : letters.contains 'a' = false := by simpa using ha
  have hk' : letters.contains 'k' = false := by simpa using hk
  rw [if_neg (by simp [ha, hk])]
  have done : ∀ t : SearchType, t.check = false → t.stdpath = letters.contains 'p' → (t.all = true ∨ (t.external = true ∧ t.builtin = true)) →
      ∃ sh' sh1 found, search E sh name t = some (sh', runs (first E name t.all found (askedBy t))) ∧ (sh' = sh ∨ sh' = sh1) ∧
        ('/' ∈ name → sh1 = sh ∧ found = some name) ∧ ('/' ∉ name → Lookup E (letters.contains 'p') sh name sh1 found) := by
    intro t h1 h2 h3
    obtain ⟨sh1, found, hl⟩ := located_exists E false t.stdpath sh name
    obtain ⟨sh', h4, h5, -⟩ := search_spec (t := t) (by rw [h1]; exact hl) h3
    refine ⟨sh', sh1, found, h4, h5, ?_, ?_⟩
    · intro hs
      unfold Located at hl
      simpa [hs] using hl
    · intro hs
      rw [← h2]
      apply located_lookup
      unfold Located at hl ⊢
      rw [if_neg hs] at hl ⊢
      exact hl
  by_cases hd : 'b' ∈ letters ∨ 'e' ∈ letters ∨ 'f' ∈ letters
  · have hd' : (!letters.contains 'b' && !letters.contains 'e' && !letters.contains 'f') = false := by
      rcases hd with h | h | h <;> simp [h]
    simp only [hd', Bool.false_eq_true, if_false]
    obtain ⟨sh', sh1, found, h1, h2, h3, h4⟩ := done ⟨letters.contains 'e', letters.contains 'b', letters.contains 'f', true, letters.contains 'p', false⟩ rfl rfl (.inl rfl)
    rw [h1]
    refine ⟨sh', sh1, found, _, rfl, h2, h3, h4, ?_, fun _ => ?_⟩
    · intro x y z
      rcases hd with h | h | h <;> contradiction
    · rw [show (fun k => letters.contains (letter k)) = askedBy ⟨letters.contains 'e', letters.contains 'b', letters.contains 'f', true, letters.contains 'p', false⟩ by
        funext k; cases k <;> simp only [letter, askedBy, ha', hk']]
  · have hd' : (!letters.contains 'b' && !letters.contains 'e' && !letters.contains 'f') = true := by
      simpa [and_assoc] using hd
    simp only [hd', if_true]
    obtain ⟨sh', sh1, found, h1, h2, h3, h4⟩ := done ⟨true, true, false, false, letters.contains 'p', false⟩ rfl rfl (.inr ⟨rfl, rfl⟩)
    rw [h1]
    refine ⟨sh', sh1, found, _, rfl, h2, h3, h4, fun _ _ _ => ?_, fun h => absurd h hd⟩
    rw [show (fun k => decide (k = Kind.builtin) || decide (k = Kind.external)) = askedBy ⟨true, true, false, false, letters.contains 'p', false⟩ by
      funext k; cases k <;> rfl]

theorem first_order {E : Env} {name : Word} (hs : '/' ∉ name) (hk : name ∉ Parser.Spec.keywords)
    (ha : ∀ a, E.aliases.find? (fun a => a.name == name) = some a → a.isGlobal = true) (found : Option Word) :
    runs (first E name false found fun _ => true) = Path.Spec.command E.builtins E.functions E.config.posix name found := by
  rw [things_find (fun _ => hk) (fun _ => ha)]
  unfold commandThings Path.Spec.command
  simp only [hs]
  cases hb : E.builtins name with
  | none => cases E.functions name <;> cases found <;> simp [only, runs]
  | some t => cases t <;> cases E.functions name <;> cases found <;> cases E.config.posix <;> simp [only, runs]

theorem identifiesAll_one {E : Env} {std sf human : Bool} {asked : Kind → Bool} {sh sh' : Shell} {name : Word} {out : Str} {ok : Bool}
    (h : IdentifiesAll E std sf human asked sh [name] sh' out ok) : Identifies E std sf human asked sh name sh' out ok := by
  cases h with
  | cons h1 h2 =>
    cases h2
    simpa using h1

/-- `command -v name` and `type name` tell what executing the name would do, for names that are not keywords and have no alias (other than a global one): they fail if
there is no such command, and else print the line for what would be executed. -/
theorem agrees {E : Env} (hc : E.cwd ≠ some []) (sh : Shell) {isType human : Bool} {args : List Word} {name : Word} {letters : List Char}
    (hg : Given E args letters [name]) (hl : ∀ c ∈ letters, c = 'v' ∨ c = 'V') (hv : Verbose isType letters human) (hk : name ∉ Parser.Spec.keywords)
    (ha : ∀ a, E.aliases.find? (fun a => a.name == name) = some a → a.isGlobal = true) :
    ∃ sh1 out ok sh2 info, commandBuiltin E isType args sh = some (.printed sh1 out ok) ∧
      resolve E.exec E.builtins E.functions E.config.posix sh name = some (sh2, info) ∧
      (ok = true ↔ info ≠ .none ∧ ('/' ∈ name → E.exec name = true)) ∧ (ok = false → out = []) ∧
      (ok = true → ∃ thing, Line E sh name human thing out ∧ runs (some thing) = info) := by
  have hno : ∀ c, c ≠ 'v' → c ≠ 'V' → c ∉ letters := fun c h1 h2 h => by
    rcases hl c h with h | h
    · exact h1 h
    · exact h2 h
  obtain ⟨sh1, out, ok, h1, h2, -⟩ := identified hc sh hg (hno '-' (by decide) (by decide)) hv (fun _ => ⟨by simp, fun _ => rfl⟩)
  have h3 := identifiesAll_one (h2 fun k => hno _ (by cases k <;> decide) (by cases k <;> decide))
  have hp : letters.contains 'p' = false := by simpa using hno 'p' (by decide) (by decide)
  rw [hp] at h3
  obtain ⟨sh', found, h4, -, h5⟩ := h3
  by_cases hs : '/' ∈ name
  · refine ⟨sh1, out, ok, _, _, h1, Path.C41_slash _ _ _ _ _ _ hs, ?_⟩
    unfold Lookup at h4
    rw [if_pos hs] at h4
    rw [h4.2, things_find (fun _ => hk) (fun _ => ha)] at h5
    unfold commandThings at h5
    cases hx : E.exec name with
    | false =>
      simp [only, hs, hx] at h5
      simp [h5, hs]
    | true =>
      simp [only, hs, hx] at h5
      refine ⟨by simp [h5], by simp [h5], fun _ => ⟨_, h5.2, rfl⟩⟩
  · unfold Lookup at h4
    rw [if_neg hs] at h4
    simp only [Bool.false_eq_true, if_false] at h4
    obtain ⟨sh'', found', info, h6, h7, rfl⟩ := Path.C41_order E.exec E.builtins E.functions E.config.posix sh name hs
    rw [h4] at h6
    simp only [Option.some.injEq, Prod.mk.injEq] at h6
    obtain ⟨rfl, rfl⟩ := h6
    obtain ⟨⟨sh2, info⟩, h8, h9⟩ := Option.map_eq_some_iff.1 h7
    refine ⟨sh1, out, ok, sh2, info, h1, h8, ?_⟩
    simp only at h9
    have hf := first_order hs hk ha found
    rw [← h9] at hf
    cases hq : first E name false found fun _ => true with
    | none =>
      rw [hq] at h5 hf
      rw [← hf]
      simp [h5, runs]
    | some thing =>
      rw [hq] at h5 hf
      refine ⟨?_, by simp [h5], fun _ => ⟨thing, h5.2, hf⟩⟩
      have hne : info ≠ .none := by
        rw [← hf]
        rw [show (fun _ => true) = askedFor ⟨true, true, true, false, false, false⟩ true true by funext k; cases k <;> rfl, first_command (fun _ => hk) (fun _ => ha)] at hq
        obtain ⟨q1, q2, -⟩ := first_sub hq
        cases thing with
        | keyword => exact absurd rfl q1
        | alias a => exact absurd rfl (q2 a)
        | builtin t => simp [runs]
        | substitutive p => simp [runs]
        | function => simp [runs]
        | external p => simp [runs]
      simp [h5, hs, hne]

/-- The path of an external command is absolute, if the current directory can be found and `PWD`, if it names the current directory, is absolute. -/
theorem absolute_partial {E : Env} {sh : Shell} {path p : Word} (h : Absolute E sh path p) (hc : ∃ d, E.cwd = some ('/' :: d))
    (hp : ∀ d, getvar sh "PWD".toList = some d → E.sameAsDot d = true → ∃ r, d = '/' :: r) : ∃ r, p = '/' :: r := by
  rcases h with ⟨⟨r, rfl⟩, rfl⟩ | ⟨_, dir, hi, hd, h⟩
  · exact ⟨r, rfl⟩
  · have : ∃ r, dir = '/' :: r := by
      rcases h with ⟨h1, h2⟩ | ⟨_, h | ⟨h, _⟩⟩
      · exact hp dir h1 h2
      · obtain ⟨d, hc⟩ := hc
        rw [h] at hc
        cases hc
        exact ⟨d, rfl⟩
      · obtain ⟨d, hc⟩ := hc
        rw [h] at hc
        cases hc
    obtain ⟨r, rfl⟩ := this
    rcases hi with ⟨h, _⟩ | ⟨d, h, rfl⟩ | ⟨_, _, rfl⟩
    · cases h
    · exact ⟨_, rfl⟩
    · exact ⟨_, rfl⟩

/-- What `command -v` prints for an alias that is not global defines the alias again when it is executed, if the name needs no quoting. -/
theorem alias_restored_partial {E : Env} (hc : E.cwd ≠ some []) (hL : Parser.Spec.LocaleOk E.config.locale)
    {env : List Alias.Alias → Expand.Env (List Alias.Alias)} (hE : ∀ s, (env s).locale = E.config.locale ∧ (env s).long.Ok)
    (sh : Shell) {args : List Word} {name value : Word} {letters : List Char} (hg : Given E args letters [name]) (hh : '-' ∉ letters) (hv : Verbose false letters false)
    (hd : 'a' ∈ letters ∨ ∀ k, letter k ∉ letters) (hk : name ∉ Parser.Spec.keywords) (hn : Alias.Spec.ValidName E.config.locale name) (hp : Alias.Spec.Plain name)
    (hm : Alias.Spec.meaning E.aliases name = some (value, false)) (tbl : List Alias.Alias) :
    ∃ sh' text tbl', commandBuiltin E false args sh = some (.printed sh' text true) ∧ Script.run (Alias.Spec.shell E.config env) text tbl = some tbl' ∧
      ∀ n, Alias.Spec.meaning tbl' n = if n = name then some (value, false) else Alias.Spec.meaning tbl n := by
  obtain ⟨text, tbl', h1, -, h2, h3, -⟩ := Alias.alias_printed_partial hL hE hn hp hm tbl
  have h1 := h1 rfl
  unfold Alias.printIfDefined Alias.lookup at h1
  cases ha : E.aliases.find? (fun a => a.name == name) with
  | none => rw [ha] at h1; cases h1
  | some a =>
    rw [ha] at h1
    simp only at h1
    split at h1
    · cases h1
    · rename_i hgl
      have hgl : a.isGlobal = false := by simpa using hgl
      simp only [Option.some.injEq] at h1
      obtain ⟨sh', out, ok, h4, h5, h6⟩ := identified hc sh hg hh hv (fun _ => ⟨by simp, fun _ => rfl⟩)
      have fin : ∀ {std sf : Bool} {asked : Kind → Bool}, asked .alias = true → IdentifiesAll E std sf false asked sh [name] sh' out ok → ok = true ∧ out = text := by
        intro std sf asked hq hi
        obtain ⟨sh1, found, -, -, hi⟩ := identifiesAll_one hi
        rw [first_alias (fun _ => hk) hq ha hgl] at hi
        refine ⟨hi.1, ?_⟩
        cases hi.2
        exact h1
      have : ok = true ∧ out = text := by
        by_cases hkk : ∃ k, letter k ∈ letters
        · rcases hd with hd | hd
          · exact fin (by simpa [letter] using hd) (h6 hkk)
          · obtain ⟨k, hkk⟩ := hkk
            exact absurd hkk (hd k)
        · exact fin rfl (h5 (by simpa using hkk))
      obtain ⟨rfl, rfl⟩ := this
      exact ⟨sh', out, tbl', h4, h2 (.inr rfl), h3⟩

/-- Nothing is printed or executed if an option is unknown, if `-a` or `-k` is given but neither `-v` nor `-V`, or, in the POSIXly-correct mode, if there are no operands or
`command -v` has more than one; without operands there is nothing to execute. -/
theorem refused (E : Env) (sh : Shell) (isType : Bool) (args : List Word) :
    ((∃ reports used operands e, Xgetopt.Spec.parse E.getopt none args = ⟨reports, used, operands, .error e⟩ ∧ '-' ∉ reports.map fun o => o.1.short) →
      commandBuiltin E isType args sh = some .error) ∧
    (∀ {letters operands}, Given E args letters operands → '-' ∉ letters → 'v' ∉ letters → 'V' ∉ letters → 'a' ∈ letters ∨ 'k' ∈ letters →
      commandBuiltin E false args sh = some .error) ∧
    (∀ {letters}, Given E args letters [] → '-' ∉ letters → 'v' ∉ letters → 'V' ∉ letters → 'a' ∉ letters → 'k' ∉ letters →
      commandBuiltin E false args sh = some (if E.config.posix then .error else .nothing)) ∧
    (∀ {letters operands human}, Given E args letters operands → '-' ∉ letters → Verbose isType letters human → E.config.posix = true →
      operands = [] ∨ (isType = false ∧ 2 ≤ operands.length) → commandBuiltin E isType args sh = some .error) := by
  refine ⟨?_, ?_, ?_, ?_⟩
  · rintro ⟨reports, used, operands, e, hp, hh⟩
    unfold commandBuiltin
    rw [hp]
    simp only
    rw [if_neg (by simpa using hh)]
  · rintro letters operands ⟨reports, used, hp, rfl⟩ hh hv hV ha
    unfold commandBuiltin
    rw [hp]
    simp only
    rw [if_neg (by simpa using hh), modes_other hv hV]
    simp only [Bool.not_false, if_true]
    rw [if_pos (by simpa only [Bool.or_eq_true, List.contains_iff_mem] using ha)]
  · rintro letters ⟨reports, used, hp, rfl⟩ hh hv hV ha hk
    unfold commandBuiltin
    rw [hp]
    simp only
    rw [if_neg (by simpa using hh), modes_other hv hV]
    simp only [Bool.not_false, if_true]
    rw [if_neg (by simp only [Bool.or_eq_true, List.contains_iff_mem]; rintro (h | h) <;> contradiction)]
    cases E.config.posix <;> rfl
  · rintro letters operands human ⟨reports, used, hp, rfl⟩ hh hv hpos hn
    unfold commandBuiltin
    rw [hp]
    simp only
    rw [if_neg (by simpa using hh), modes_verbose hv]
    simp only [Bool.not_true, Bool.false_eq_true, if_false]
    rw [if_pos]
    rcases hn with rfl | ⟨rfl, h⟩
    · simp [hpos]
    · simp [hpos]; omega

/-- The options that there are; in the POSIX mode, only three. -/
theorem option_letters (E : Env) (c : Char) :
    (Xgetopt.Spec.findShort E.getopt c).isSome ↔ c ∈ (if E.config.posix = true then "pvV".toList else "abefkpvV".toList) := by
  have e1 : "pvV".toList = ['p', 'v', 'V'] := by decide
  have e2 : "abefkpvV".toList = ['a', 'b', 'e', 'f', 'k', 'p', 'v', 'V'] := by decide
  unfold Xgetopt.Spec.findShort Env.getopt commandOptions
  rw [e1, e2]
  cases hp : E.config.posix <;> by_cases hc : c = '-' <;> simp [hc, @eq_comm Char _ c] <;> grind

end Yash.Command
