import Verif.Bindkey.Lemmas
/-! # Property C83: key bindings -/
set_option autoImplicit false

namespace Yash.Bindkey

open Spec
open Yash.Expand (Locale Env quoteAsWord lineOf Ordinary)
open Yash.Keys (ltChar ltChar_ok)
open Yash.Parser.Spec (LocaleOk keywords)
open Yash.Restore (Literal NameWord literal_chars literal_quote)

attribute [local irreducible] commands printAllCommands getCommandFromName getCommandName identifiers

/-! ## Reading the arguments -/

theorem parse_operands {cfg : Xgetopt.Config} (h1 : cfg.posixlyCorrect = false) (h2 : cfg.flagPosix = false) :
    ∀ (ops : List Str), (∀ o ∈ ops, o.head? = some '-' → o = ['-']) → Xgetopt.Spec.parse cfg none ops = ⟨[], [], ops, .done⟩
  | [], _ => by rw [Xgetopt.Spec.parse]
  | o :: ops, h => by
    have hk : Xgetopt.Spec.kind cfg o = .operand := by
      by_cases hh : o.head? = some '-'
      · rw [h o (by simp) hh]; rfl
      · exact Restore.kind_operand cfg hh
    rw [Xgetopt.Spec.parse]
    simp only [hk, h1, h2, parse_operands h1 h2 ops (fun x hx => h x (by simp [hx])), Bool.or_self, Bool.false_eq_true, if_false]

theorem parse_sep (cfg : Xgetopt.Config) (rest : List Str) : Xgetopt.Spec.parse cfg none ("--".toList :: rest) = ⟨[], ["--".toList], rest, .done⟩ := by
  rw [Xgetopt.Spec.parse]
  rfl

/-- The entry in the table for a mode. -/
def optOf : Mode → Xgetopt.Opt
  | .viInsert => ⟨'v', some "vi-insert".toList, .none, false⟩
  | .viCommand => ⟨'a', some "vi-command".toList, .none, false⟩
  | _ => ⟨'e', some "emacs".toList, .none, false⟩

theorem parse_select {C : Config} (hp : C.posix = false) {opt : Str} {m : Mode} (h : Selects opt m) (rest : List Str) :
    Xgetopt.Spec.parse C.getopt none (opt :: rest) =
      { Xgetopt.Spec.parse C.getopt none rest with
        reports := (optOf m, none) :: (Xgetopt.Spec.parse C.getopt none rest).reports
        used := opt :: (Xgetopt.Spec.parse C.getopt none rest).used } := by
  have hC : C.getopt = ⟨options, false, false, false, C.isDigit⟩ := by rw [Config.getopt, hp]
  rw [Xgetopt.Spec.parse]
  cases h with
  | v =>
    have h1 : Xgetopt.Spec.kind C.getopt "-v".toList = .short ['v'] := by rw [hC]; rfl
    have h2 : Xgetopt.Spec.cluster C.getopt none ['v'] = .complete [(optOf .viInsert, none)] none := by rw [hC]; rfl
    simp only [h1, h2, List.cons_append, List.nil_append]
  | a =>
    have h1 : Xgetopt.Spec.kind C.getopt "-a".toList = .short ['a'] := by rw [hC]; rfl
    have h2 : Xgetopt.Spec.cluster C.getopt none ['a'] = .complete [(optOf .viCommand, none)] none := by rw [hC]; rfl
    simp only [h1, h2, List.cons_append, List.nil_append]
  | e =>
    have h1 : Xgetopt.Spec.kind C.getopt "-e".toList = .short ['e'] := by rw [hC]; rfl
    have h2 : Xgetopt.Spec.cluster C.getopt none ['e'] = .complete [(optOf .emacs, none)] none := by rw [hC]; rfl
    simp only [h1, h2, List.cons_append, List.nil_append]
  | viInsert =>
    have h1 : Xgetopt.Spec.kind C.getopt "--vi-insert".toList = .long "vi-insert".toList [] := by rw [hC]; rfl
    have h2 : Xgetopt.Spec.long C.getopt none "vi-insert".toList [] = .complete [(optOf .viInsert, none)] none := by rw [hC]; rfl
    simp only [h1, h2, List.cons_append, List.nil_append]
  | viCommand =>
    have h1 : Xgetopt.Spec.kind C.getopt "--vi-command".toList = .long "vi-command".toList [] := by rw [hC]; rfl
    have h2 : Xgetopt.Spec.long C.getopt none "vi-command".toList [] = .complete [(optOf .viCommand, none)] none := by rw [hC]; rfl
    simp only [h1, h2, List.cons_append, List.nil_append]
  | emacs =>
    have h1 : Xgetopt.Spec.kind C.getopt "--emacs".toList = .long "emacs".toList [] := by rw [hC]; rfl
    have h2 : Xgetopt.Spec.long C.getopt none "emacs".toList [] = .complete [(optOf .emacs, none)] none := by rw [hC]; rfl
    simp only [h1, h2, List.cons_append, List.nil_append]

theorem parse_usage {C : Config} (hp : C.posix = false) {args ops : List Str} {m : Mode} (h : Usage args m ops) :
    ∃ used, Xgetopt.Spec.parse C.getopt none args = ⟨[(optOf m, none)], used, ops, .done⟩ := by
  cases h with
  | plain hs ho =>
    rw [parse_select hp hs, parse_operands (cfg := C.getopt) hp rfl _ ho]
    exact ⟨_, rfl⟩
  | separated hs =>
    rw [parse_select hp hs, parse_sep]
    exact ⟨_, rfl⟩

theorem usage_mode {args ops : List Str} {m : Mode} (h : Usage args m ops) : m = .viInsert ∨ m = .viCommand ∨ m = .emacs := by
  cases h with
  | plain hs _ => cases hs <;> simp
  | separated hs => cases hs <;> simp

/-- What the built-in does with its operands. -/
def operate (C : Config) (m : Mode) (ops : List Str) (s : State) : Option (Str × Status × State) :=
  match ops with
  | [] => (printAll C m (s.keymap m)).map fun out => (out, .success, s)
  | [key] => printBinding C m key s
  | [key, name] => setKeyBinding C m key name s
  | _ => some ([], .error, s)

theorem usage_operate {C : Config} (hp : C.posix = false) {args ops : List Str} {m : Mode} (h : Usage args m ops) (s : State) :
    bindkeyBuiltin C args s = operate C m ops s := by
  obtain ⟨used, hu⟩ := parse_usage hp h
  have hm := usage_mode h
  have hs : selected [(optOf m, none)] = some m := by rcases hm with rfl | rfl | rfl <;> rfl
  have h1 : ([(optOf m, none)] : List Xgetopt.Report).any (fun o => o.1.short == '-') = false := by rcases hm with rfl | rfl | rfl <;> rfl
  have h2 : ([(optOf m, none)] : List Xgetopt.Report).any (fun o => o.1.short == 'l') = false := by rcases hm with rfl | rfl | rfl <;> rfl
  unfold bindkeyBuiltin
  simp only [hu, h1, h2, hs, Bool.false_eq_true, if_false]
  rfl

/-! ## Binding and removing -/

/-- `bindkey -v key command`: the key sequence is bound to the command in that mode, and nothing else changes. -/
theorem bind_sets {C : Config} (hp : C.posix = false) (hE : EncodesAscii C.encode) {s : State} (hs : Reachable s) {args : List Str} {m : Mode} {key name command : Str}
    (hu : Usage args m [key, name]) (hk : key ≠ []) (hn : Names name command) :
    ∃ s', bindkeyBuiltin C args s = some ([], .success, s') ∧
      bound s' m key = some command ∧ ∀ m' key', (m' ≠ m ∨ key' ≠ key) → bound s' m' key' = bound s m' key' := by
  obtain ⟨t, h1, -, h3⟩ := ok_set (reachable_ok hs) m hk hn
  refine ⟨s.put m t, ?_, by rw [h3, if_pos ⟨rfl, rfl⟩], fun m' k h => by rw [h3, if_neg (by rintro ⟨rfl, rfl⟩; simp at h)]⟩
  rw [usage_operate hp hu]
  obtain ⟨hn1, hn2, -⟩ := names_chars hn
  have he : C.encode name = some (bytes name) := (hE name (names_ascii hn) name).2 rfl
  have hne : name ≠ ['-'] := by rintro rfl; simp at hn2
  have hke : key.isEmpty = false := by cases key <;> simp_all
  show setKeyBinding C m key name s = _
  rw [setKeyBinding]
  simp only [hke, if_neg hne, he, find_name hn, h1, Option.map_some, Bool.false_eq_true, if_false]

/-- `bindkey -v key -`: the key sequence is no longer bound in that mode, and nothing else changes. -/
theorem bind_removes {C : Config} (hp : C.posix = false) {s : State} (hs : Reachable s) {args : List Str} {m : Mode} {key : Str}
    (hu : Usage args m [key, "-".toList]) (hk : key ≠ []) :
    ∃ s', bindkeyBuiltin C args s = some ([], .success, s') ∧
      bound s' m key = none ∧ ∀ m' key', (m' ≠ m ∨ key' ≠ key) → bound s' m' key' = bound s m' key' := by
  obtain ⟨t, h1, -, h3⟩ := ok_remove (reachable_ok hs) m key
  refine ⟨s.put m t, ?_, by rw [h3, if_pos ⟨rfl, rfl⟩], fun m' k h => by rw [h3, if_neg (by rintro ⟨rfl, rfl⟩; simp at h)]⟩
  rw [usage_operate hp hu]
  have hke : key.isEmpty = false := by cases key <;> simp_all
  show setKeyBinding C m key "-".toList s = _
  rw [setKeyBinding]
  rw [if_neg (by simp [hke]), if_pos (by decide), h1]
  rfl

/-- An empty key sequence and an unknown command are refused, and nothing changes. -/
theorem bind_refuses {C : Config} (hp : C.posix = false) (hE : EncodesAscii C.encode) {s : State} {args : List Str} {m : Mode} {key name : Str}
    (hu : Usage args m [key, name]) (h : key = [] ∨ (name ≠ "-".toList ∧ ¬∃ command, Names name command)) :
    bindkeyBuiltin C args s = some ([], .failure, s) := by
  rw [usage_operate hp hu]
  show setKeyBinding C m key name s = _
  rw [setKeyBinding]
  cases key with
  | nil => rfl
  | cons c key =>
    rcases h with h | ⟨h1, h2⟩
    · cases h
    rw [if_neg (by simp), if_neg (show name ≠ ['-'] from h1)]
    cases he : C.encode name with
    | none => rfl
    | some mbs =>
      cases hf : getCommandFromName mbs with
      | none => simp only [hf]
      | some f =>
        exfalso
        obtain ⟨n, hb, hn⟩ := find_sound hf
        subst hb
        have := (hE n (names_ascii hn) name).1 he
        subst this
        exact h2 ⟨f, hn⟩

/-- Whatever the arguments are, either nothing changes or one key sequence of one mode is bound or unbound, and nothing is printed. The search modes and the
mode that waits for a character never change. -/
theorem changes_one {C : Config} {s s' : State} (hs : Reachable s) {args : List Str} {out : Str} {st : Status}
    (h : bindkeyBuiltin C args s = some (out, st, s')) :
    s' = s ∨ (out = [] ∧ st = .success ∧ ∃ m key, (m = .viInsert ∨ m = .viCommand ∨ m = .emacs) ∧ key ≠ [] ∧
      ∀ m' key', (m' ≠ m ∨ key' ≠ key) → bound s' m' key' = bound s m' key') := by
  have ho := reachable_ok hs
  rcases (builtin_ok ho h).2 with h1 | ⟨m, key, name, -, hm, h1⟩
  · exact .inl h1
  have hmode : ∀ (rs : List Xgetopt.Report) (a : Option Mode), (∀ m, a = some m → m = .viInsert ∨ m = .viCommand ∨ m = .emacs) →
      ∀ m, rs.foldl (fun m r => if r.1.short = 'a' then some .viCommand else if r.1.short = 'e' then some .emacs else if r.1.short = 'v' then some .viInsert else m) a = some m →
        m = .viInsert ∨ m = .viCommand ∨ m = .emacs := by
    intro rs
    induction rs with
    | nil => intro a ha m hm; exact ha m hm
    | cons r rs ih =>
      intro a ha m hm
      refine ih _ ?_ m hm
      intro m' hm'
      simp only at hm'
      split at hm'
      · cases hm'; simp
      · split at hm'
        · cases hm'; simp
        · split at hm'
          · cases hm'; simp
          · exact ha m' hm'
  have hm' := hmode _ none (by simp) m hm
  obtain ⟨st', s2, h2, -, h3⟩ := set_binding C ho m key name
  rw [h1] at h2
  cases h2
  rcases h3 with h3 | ⟨h3, h4, h5⟩
  · exact .inl h3
  refine .inr ⟨rfl, h3, m, key, hm', h4, fun m' k hne => ?_⟩
  have hx : ¬(m' = m ∧ k = key) := by rintro ⟨rfl, rfl⟩; simp at hne
  rcases h5 with ⟨-, h5⟩ | ⟨f, -, h5⟩ <;> rw [h5, if_neg hx]

/-- The built-in never does anything undefined; only the help is left out of the model. -/
theorem never_undefined (C : Config) {s : State} (hs : Reachable s) (args : List Str)
    (hh : ∀ o ∈ (Xgetopt.Spec.parse C.getopt none args).reports, o.1.short ≠ '-') : ∃ r, bindkeyBuiltin C args s = some r := by
  have ho := reachable_ok hs
  have h1 : ((Xgetopt.Spec.parse C.getopt none args).reports.any fun o => o.1.short == '-') = false := by
    rw [Bool.eq_false_iff]
    intro h
    obtain ⟨o, h2, h3⟩ := List.any_eq_true.1 h
    exact hh o h2 (by simpa using h3)
  unfold bindkeyBuiltin
  simp only [h1, Bool.false_eq_true, if_false]
  split
  · exact ⟨_, rfl⟩
  · split
    · split
      · exact ⟨_, rfl⟩
      · split <;> exact ⟨_, rfl⟩
    · split
      · exact ⟨_, rfl⟩
      · rename_i m _
        split
        · rw [print_all C ho m]; exact ⟨_, rfl⟩
        · rename_i key _
          rcases print_one C ho m key with ⟨_, _, -, -, hp⟩ | ⟨-, hp⟩ <;> (rw [hp]; exact ⟨_, rfl⟩)
        · rename_i key name _
          obtain ⟨_, _, hp, -⟩ := set_binding C ho m key name
          rw [hp]; exact ⟨_, rfl⟩
        · exact ⟨_, rfl⟩

/-! ## Before the first binding -/

/-- There is an initial state, and the keys in the manual's tables are bound to the commands there; nothing else is. -/
theorem initial_bindings : ∃ s, (∀ m, initialTrie m = some (s.keymap m)) ∧ Reachable s ∧
    ∀ m, (∀ e ∈ initialKeys m, bound s m e.1 = some (function e.2)) ∧ ∀ key, (∀ e ∈ initialKeys m, e.1 ≠ key) → bound s m key = none := by
  have hs : ∀ m, initialTrie m = some ((initialTrie m).getD Trie.create) := by
    intro m
    obtain ⟨t, h, -⟩ := initial_trie m
    rw [h]; rfl
  refine ⟨⟨fun m => (initialTrie m).getD Trie.create⟩, hs, .initial hs, fun m => ?_⟩
  have ho := ok_initial (s := ⟨fun m => (initialTrie m).getD Trie.create⟩) hs
  obtain ⟨t, h1, -, h3, h4⟩ := initial_trie m
  have ht : (initialTrie m).getD Trie.create = t := by rw [h1]; rfl
  constructor
  · intro e he
    rw [bound_val ho]
    show Trie.val ((initialTrie m).getD Trie.create) _ = _
    rw [ht]
    exact h3 e he
  · intro k hk
    rw [bound_val ho]
    show Trie.val ((initialTrie m).getD Trie.create) _ = _
    rw [ht]
    exact h4 k hk

/-! ## Printing -/

/-- Every bound command has a name, and an empty key sequence is never bound. -/
theorem bound_named {s : State} (hs : Reachable s) : (∀ m, bound s m [] = none) ∧ ∀ m key command, bound s m key = some command → ∃ name, Names name command := by
  have ho := reachable_ok hs
  constructor
  · intro m
    rw [bound_val ho, ho.empty]
  · intro m key f h
    rw [bound_val ho] at h
    exact ho.named m key f h

theorem dash_ordinary {L : Locale} (hL : LocaleOk L) : Ordinary L '-' := ⟨by decide, hL.ok.punct_blank '-' (by decide)⟩

theorem letter_ordinary {L : Locale} (hL : LocaleOk L) {c : Char} (h1 : 'a' ≤ c) (h2 : c ≤ 'z') : Ordinary L c := by
  have ha := hL.lower c h1 h2
  refine ⟨fun h => ?_, hL.ok.alnum_blank c ha⟩
  have : ∀ c ∈ "\"'\\$`\n;&|<>(){*?[~#".toList, ¬('a' ≤ c ∧ c ≤ 'z') := by decide
  exact this c h ⟨h1, h2⟩

theorem bindkey_nameWord {L : Locale} (hL : LocaleOk L) : NameWord L "bindkey".toList := by
  have h : ∀ d ∈ "bindkey".toList, 'a' ≤ d ∧ d ≤ 'z' := by decide
  exact ⟨'b', "indkey".toList, rfl, by decide, fun d hd => .inr (hL.lower d (h d hd).1 (h d hd).2)⟩

theorem words_line {C : Config} (hL : LocaleOk C.locale) {m : Mode} (hm : m = .viInsert ∨ m = .viCommand ∨ m = .emacs) (key : Str) {name f : Str} (hn : Names name f) :
    Script.Line C.locale (words C m key name) := by
  unfold words
  refine Script.line_name hL (bindkey_nameWord hL) (by decide) ?_
  intro w hw
  rcases List.mem_cons.1 hw with rfl | hw
  · refine literal_chars (by simp) fun c hc => ?_
    rcases List.mem_cons.1 hc with rfl | hc
    · exact dash_ordinary hL
    · rcases List.mem_cons.1 hc with rfl | hc
      · rcases hm with rfl | rfl | rfl <;> exact letter_ordinary hL (by decide) (by decide)
      · simp at hc
  · rcases List.mem_append.1 hw with hw | hw
    · split at hw
      · simp only [List.mem_singleton] at hw
        subst hw
        refine literal_chars (by decide) fun c hc => ?_
        have : ∀ c ∈ "--".toList, c = '-' := by decide
        rw [this c hc]
        exact dash_ordinary hL
      · simp at hw
    · rcases List.mem_cons.1 hw with rfl | hw
      · exact literal_quote hL.ok key
      · simp only [List.mem_singleton] at hw
        subst hw
        obtain ⟨h1, -, h3⟩ := names_chars hn
        refine literal_chars h1 fun c hc => ?_
        rcases h3 c hc with h | rfl
        · exact letter_ordinary hL h.1 h.2
        · exact dash_ordinary hL

theorem words_usage (C : Config) {m : Mode} (hm : m = .viInsert ∨ m = .viCommand ∨ m = .emacs) (key : Str) {name f : Str} (hn : Names name f) :
    ∃ args, (words C m key name).map (·.2) = "bindkey".toList :: args ∧ Usage args m [key, name] := by
  unfold words
  have hs : Selects ['-', modechar m] m := by
    rcases hm with rfl | rfl | rfl
    · exact .v
    · exact .a
    · exact .e
  by_cases hk : key.head? = some '-'
  · rw [if_pos hk]
    exact ⟨_, rfl, .separated hs⟩
  · rw [if_neg hk]
    refine ⟨_, rfl, .plain hs ?_⟩
    intro o ho hh
    rcases List.mem_cons.1 ho with rfl | ho
    · exact absurd hh hk
    · rcases List.mem_cons.1 ho with rfl | ho
      · exact absurd hh (names_chars hn).2.1
      · cases ho

/-- Executing printed lines binds the key sequences one after another. -/
theorem run_bindings {C : Config} (hp : C.posix = false) (hE : EncodesAscii C.encode) (hL : LocaleOk C.locale) {env : State → Env State}
    (hV : ∀ s, (env s).locale = C.locale ∧ (env s).long.Ok) {m : Mode} (hm : m = .viInsert ∨ m = .viCommand ∨ m = .emacs) (l : List (Str × Str))
    (hl : ∀ e ∈ l, e.1 ≠ [] ∧ ∃ name, getCommandName e.2 = some name) (hd : l.Pairwise fun a b => a.1 ≠ b.1) {t : State} (ht : Reachable t) :
    ∃ t', Script.run (shell C env) (l.flatMap fun e => lineOf ((words C m e.1 ((getCommandName e.2).getD [])).map (·.1))) t = some t' ∧ Reachable t' ∧
      (∀ e ∈ l, bound t' m e.1 = some e.2) ∧ ∀ m' k, (m' ≠ m ∨ ∀ e ∈ l, e.1 ≠ k) → bound t' m' k = bound t m' k := by
  have hlines : ∀ x ∈ l.map fun e => words C m e.1 ((getCommandName e.2).getD []), Script.Line C.locale x := by
    intro x hx
    obtain ⟨e, he, rfl⟩ := List.mem_map.1 hx
    obtain ⟨-, n, hn⟩ := hl e he
    rw [hn]
    exact words_line hL hm e.1 (name_sound hn)
  have hrun := Script.run_eq (shell C env) hL hV _ hlines t
  rw [List.flatMap_map, List.map_map] at hrun
  rw [hrun]
  clear hrun hlines
  induction l generalizing t with
  | nil => exact ⟨t, rfl, ht, by simp, fun _ _ _ => rfl⟩
  | cons e l ih =>
    obtain ⟨hd1, hd2⟩ := List.pairwise_cons.1 hd
    obtain ⟨hk, n, hn⟩ := hl e (by simp)
    have hN := name_sound hn
    obtain ⟨args, hargs, hu⟩ := words_usage C hm e.1 hN
    obtain ⟨t1, g1, g2, g3⟩ := bind_sets hp hE ht hu hk hN
    obtain ⟨t2, k1, k2, k3, k4⟩ := ih (fun x hx => hl x (by simp [hx])) hd2 (ht.step g1)
    refine ⟨t2, ?_, k2, ?_, ?_⟩
    · rw [List.map_cons, Script.execAll]
      have hx : (shell C env).exec (((fun l => List.map (·.2) l) ∘ fun e => words C m e.1 ((getCommandName e.2).getD [])) e) t = some t1 := by
        simp only [Function.comp, hn, Option.getD_some, hargs]
        simp only [shell, if_true, g1]
      have ha : (shell C env).active t = true := rfl
      rw [if_pos ha, hx]
      exact k1
    · intro x hx
      rcases List.mem_cons.1 hx with rfl | hx
      · rw [k4 m x.1 (.inr fun y hy => (hd1 y hy).symm), g2]
      · exact k3 x hx
    · intro m' k hne
      rw [k4 m' k (hne.imp id fun h y hy => h y (by simp [hy]))]
      exact g3 m' k (hne.imp id fun h => (h e (by simp)).symm)

/-- What `bindkey -v` prints in a shell, executed in another one, binds all the key sequences there as in the first. The other bindings stay as they are. -/
theorem bindings_restored {C : Config} (hp : C.posix = false) (hE : EncodesAscii C.encode) (hL : LocaleOk C.locale) {env : State → Env State}
    (hV : ∀ s, (env s).locale = C.locale ∧ (env s).long.Ok) {s t : State} (hs : Reachable s) (ht : Reachable t) {args : List Str} {m : Mode} (hu : Usage args m []) :
    ∃ text, bindkeyBuiltin C args s = some (text, .success, s) ∧ ∃ t', Script.run (shell C env) text t = some t' ∧
      (∀ key command, bound s m key = some command → bound t' m key = some command) ∧
      ∀ m' key, (m' ≠ m ∨ bound s m key = none) → bound t' m' key = bound t m' key := by
  have ho := reachable_ok hs
  have hmem := Trie.mem_flat ltChar_ok (ho.good m)
  refine ⟨(Trie.flat (s.keymap m)).flatMap fun e => lineOf ((words C m e.1 ((getCommandName e.2).getD [])).map (·.1)), ?_, ?_⟩
  · rw [usage_operate hp hu]
    show (printAll C m (s.keymap m)).map _ = _
    rw [print_all C ho m]
    rfl
  have hd : (Trie.flat (s.keymap m)).Pairwise fun a b => a.1 ≠ b.1 := by
    refine (Trie.pairwise_flat ltChar_ok (ho.good m)).imp ?_
    intro a b hlt hab
    rw [hab] at hlt
    have : ∀ k : Str, Trie.lexLt ltChar k k = false := by
      intro k
      induction k with
      | nil => rfl
      | cons c k ih => simp [Trie.lexLt, ih, ltChar_ok.irrefl]
    rw [this] at hlt
    cases hlt
  obtain ⟨t', h1, -, h3, h4⟩ := run_bindings hp hE hL hV (usage_mode hu) (Trie.flat (s.keymap m)) (by
    intro e he
    have hv := (hmem e.1 e.2).1 he
    obtain ⟨n, hn⟩ := ho.named m e.1 e.2 hv
    obtain ⟨n', h1, -⟩ := name_of hn
    refine ⟨fun hk => ?_, n', h1⟩
    rw [hk, ho.empty] at hv
    cases hv) hd ht
  refine ⟨t', h1, ?_, ?_⟩
  · intro k f hf
    rw [bound_val ho] at hf
    exact h3 (k, f) ((hmem k f).2 hf)
  · intro m' k hne
    refine h4 m' k (hne.imp id fun hn e he => ?_)
    rintro rfl
    have hv := (hmem e.1 e.2).1 he
    rw [bound_val ho, hv] at hn
    cases hn

/-- In particular, the printed text executed in a shell with the initial bindings of that mode, none of which was removed in the first one, makes the mode the
same in both. -/
theorem bindings_equal {C : Config} (hp : C.posix = false) (hE : EncodesAscii C.encode) (hL : LocaleOk C.locale) {env : State → Env State}
    (hV : ∀ s, (env s).locale = C.locale ∧ (env s).long.Ok) {s t : State} (hs : Reachable s) (ht : Reachable t) {args : List Str} {m : Mode} (hu : Usage args m [])
    (hsub : ∀ key, bound s m key = none → bound t m key = none) :
    ∃ text, bindkeyBuiltin C args s = some (text, .success, s) ∧ ∃ t', Script.run (shell C env) text t = some t' ∧ ∀ key, bound t' m key = bound s m key := by
  obtain ⟨text, h1, t', h2, h3, h4⟩ := bindings_restored hp hE hL hV hs ht hu
  refine ⟨text, h1, t', h2, fun key => ?_⟩
  cases hb : bound s m key with
  | some f => exact h3 key f hb
  | none => rw [h4 m key (.inr hb)]; exact hsub key hb

/-- `bindkey -v key` prints a command that binds the key sequence as it is bound, and fails if it is not bound. -/
theorem binding_printed {C : Config} (hp : C.posix = false) (hE : EncodesAscii C.encode) (hL : LocaleOk C.locale) {env : State → Env State}
    (hV : ∀ s, (env s).locale = C.locale ∧ (env s).long.Ok) {s t : State} (hs : Reachable s) (ht : Reachable t) {args : List Str} {m : Mode} {key : Str} (hu : Usage args m [key]) :
    (bound s m key = none ∧ bindkeyBuiltin C args s = some ([], .failure, s)) ∨
      ∃ command text, bound s m key = some command ∧ bindkeyBuiltin C args s = some (text, .success, s) ∧ ∃ t', Script.run (shell C env) text t = some t' ∧
        bound t' m key = some command ∧ ∀ m' key', (m' ≠ m ∨ key' ≠ key) → bound t' m' key' = bound t m' key' := by
  have ho := reachable_ok hs
  rw [usage_operate hp hu]
  show (_ ∧ printBinding C m key s = _) ∨ ∃ command text, _ ∧ printBinding C m key s = _ ∧ _
  rcases print_one C ho m key with ⟨f, name, hb, hn, h⟩ | ⟨hb, h⟩
  · right
    refine ⟨f, _, hb, h, ?_⟩
    obtain ⟨t', h1, -, h3, h4⟩ := run_bindings hp hE hL hV (usage_mode hu) [(key, f)] (by
      intro e he
      simp only [List.mem_singleton] at he
      subst he
      refine ⟨?_, name, hn⟩
      rintro rfl
      rw [(bound_named hs).1] at hb
      cases hb) (by simp) ht
    refine ⟨t', ?_, h3 (key, f) (by simp), fun m' k hne => h4 m' k (hne.imp id fun h e he => ?_)⟩
    · simpa [hn] using h1
    · simp only [List.mem_singleton] at he
      subst he
      exact h.symm
  · exact .inl ⟨hb, h⟩

/-! ## The names -/

/-- `bindkey -l` prints exactly the names of the commands, each on a line and once, in the order of their bytes; nothing changes. -/
theorem names_listed {C : Config} (hp : C.posix = false) (s : State) :
    ∃ names : List Str, bindkeyBuiltin C ["-l".toList] s = some (names.flatMap (· ++ ['\n']), .success, s) ∧ (∀ n, n ∈ names ↔ ∃ command, Names n command) ∧
      names.Pairwise fun a b => a.map Char.toNat < b.map Char.toNat := by
  refine ⟨commands.map (·.1), ?_, ?_, ?_⟩
  · have hC : C.getopt = ⟨options, false, false, false, C.isDigit⟩ := by rw [Config.getopt, hp]
    have h1 : Xgetopt.Spec.parse C.getopt none ["-l".toList] = ⟨[(⟨'l', some "list".toList, .none, false⟩, none)], ["-l".toList], [], .done⟩ := by
      have hk : Xgetopt.Spec.kind C.getopt "-l".toList = .short ['l'] := by rw [hC]; rfl
      have hc : Xgetopt.Spec.cluster C.getopt none ['l'] = .complete [(⟨'l', some "list".toList, .none, false⟩, none)] none := by rw [hC]; rfl
      rw [Xgetopt.Spec.parse]
      simp only [hk, hc, List.append_nil]
      rw [Xgetopt.Spec.parse]
      rfl
    unfold bindkeyBuiltin
    simp only [h1]
    show some (printAllCommands, _, _) = _
    rw [List.flatMap_map]
    unfold printAllCommands
    rfl
  · intro n
    rw [List.mem_map]
    constructor
    · rintro ⟨e, he, rfl⟩
      exact ⟨e.2, mem_commands.1 he⟩
    · rintro ⟨f, hf⟩
      exact ⟨_, mem_commands.2 hf, rfl⟩
  · rw [List.pairwise_map]
    refine commands_sorted.imp ?_
    intro a b h
    have key : ∀ x y : List Nat, strcmp x y = .lt → x < y := by
      intro x
      induction x with
      | nil => intro y h; cases y with
        | nil => simp [strcmp] at h
        | cons => exact List.nil_lt_cons ..
      | cons c x ih =>
        intro y h
        cases y with
        | nil => simp [strcmp] at h
        | cons d y =>
          rw [strcmp] at h
          split at h
          · exact List.cons_lt_cons_iff.2 (.inl ‹_›)
          · split at h
            · cases h
            · exact List.cons_lt_cons_iff.2 (.inr ⟨by omega, ih y h⟩)
    exact key _ _ h

/-- In the POSIXly correct mode all options are refused, so that bindings can neither be printed nor changed. -/
theorem posix_refuses {C : Config} (hp : C.posix = true) {opt : Str} {m : Mode} (ho : Selects opt m) (rest : List Str) (s : State) :
    bindkeyBuiltin C (opt :: rest) s = some ([], .error, s) := by
  have hC : C.getopt = ⟨options, true, false, false, C.isDigit⟩ := by rw [Config.getopt, hp]
  have h : Xgetopt.Spec.parse C.getopt none (opt :: rest) = ⟨[], [], opt :: rest, .error .noSuchOption⟩ := by
    rw [hC]
    cases ho <;> (rw [Xgetopt.Spec.parse]; rfl)
  unfold bindkeyBuiltin
  simp only [h]
  rfl

/-! ## Misuse -/

/-- More than two operands are refused. -/
theorem too_many {C : Config} (hp : C.posix = false) {args ops : List Str} {m : Mode} (hu : Usage args m ops) (h : 2 < ops.length) (s : State) :
    bindkeyBuiltin C args s = some ([], .error, s) := by
  rw [usage_operate hp hu]
  match ops, h with
  | _ :: _ :: _ :: _, _ => rfl

/-- Without an option nothing is done. -/
theorem no_mode {C : Config} (hp : C.posix = false) {ops : List Str} (h : ∀ o ∈ ops, o.head? = some '-' → o = ['-']) (s : State) :
    bindkeyBuiltin C ops s = some ([], .error, s) := by
  unfold bindkeyBuiltin
  rw [parse_operands (cfg := C.getopt) hp rfl ops h]
  rfl

/-- `-l` takes no operands and cannot be combined with a mode. -/
theorem list_alone {C : Config} (hp : C.posix = false) {ops : List Str} (s : State) :
    ((∀ o ∈ ops, o.head? = some '-' → o = ['-']) → ops ≠ [] → bindkeyBuiltin C ("-l".toList :: ops) s = some ([], .error, s)) ∧
      ∀ opt m, Selects opt m → (∀ o ∈ ops, o.head? = some '-' → o = ['-']) → bindkeyBuiltin C ("-l".toList :: opt :: ops) s = some ([], .error, s) := by
  have hC : C.getopt = ⟨options, false, false, false, C.isDigit⟩ := by rw [Config.getopt, hp]
  have hk : Xgetopt.Spec.kind C.getopt "-l".toList = .short ['l'] := by rw [hC]; rfl
  have hc : Xgetopt.Spec.cluster C.getopt none ['l'] = .complete [(⟨'l', some "list".toList, .none, false⟩, none)] none := by rw [hC]; rfl
  constructor
  · intro h hne
    have h1 : Xgetopt.Spec.parse C.getopt none ("-l".toList :: ops) = ⟨[(⟨'l', some "list".toList, .none, false⟩, none)], ["-l".toList], ops, .done⟩ := by
      rw [Xgetopt.Spec.parse]
      simp only [hk, hc, parse_operands (cfg := C.getopt) hp rfl ops h, List.append_nil]
    unfold bindkeyBuiltin
    simp only [h1]
    have hl : ops.length > 0 := List.length_pos_iff.2 hne
    simp [hl]
  · intro opt m hs h
    have h1 : Xgetopt.Spec.parse C.getopt none ("-l".toList :: opt :: ops) =
        ⟨[(⟨'l', some "list".toList, .none, false⟩, none), (optOf m, none)], ["-l".toList, opt], ops, .done⟩ := by
      rw [Xgetopt.Spec.parse]
      simp only [hk, hc, parse_select hp hs, parse_operands (cfg := C.getopt) hp rfl ops h, List.cons_append, List.nil_append]
    unfold bindkeyBuiltin
    simp only [h1]
    cases hs <;> simp [optOf, selected]

end Yash.Bindkey
