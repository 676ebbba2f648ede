import Verif.Bindkey.Spec
import Verif.Bindkey.Facts
import Verif.Trie.Props
import Verif.Keys.Lemmas
import Verif.Restore.Exec
import Verif.Script.Lemmas
/-! # Key bindings: lemmas -/
set_option autoImplicit false

namespace Yash.Bindkey

open Spec
open Yash.Expand (Locale quoteAsWord lineOf)
open Yash.Keys (ltChar ltChar_ok)

/-! ## The table -/

theorem strcmp_eq : ∀ {a b : List Nat}, strcmp a b = .eq ↔ a = b
  | [], [] => by simp [strcmp]
  | [], _ :: _ => by simp [strcmp]
  | _ :: _, [] => by simp [strcmp]
  | a :: as, b :: bs => by
    rw [strcmp]
    by_cases h1 : a < b
    · rw [if_pos h1]
      simp only [reduceCtorEq, List.cons.injEq, false_iff, not_and]
      omega
    · rw [if_neg h1]
      by_cases h2 : b < a
      · rw [if_pos h2]
        simp only [reduceCtorEq, List.cons.injEq, false_iff, not_and]
        omega
      · rw [if_neg h2, strcmp_eq, List.cons.injEq]
        exact ⟨fun h => ⟨by omega, h⟩, (·.2)⟩

theorem strcmp_swap : ∀ {a b : List Nat}, strcmp a b = .lt ↔ strcmp b a = .gt
  | [], [] => by simp [strcmp]
  | [], _ :: _ => by simp [strcmp]
  | _ :: _, [] => by simp [strcmp]
  | a :: as, b :: bs => by
    rw [strcmp, strcmp]
    by_cases h1 : a < b
    · rw [if_pos h1, if_neg (by omega), if_pos h1]; simp
    · by_cases h2 : b < a
      · rw [if_neg h1, if_pos h2, if_pos h2]; simp
      · rw [if_neg h1, if_neg h2, if_neg h2, if_neg h1]
        exact strcmp_swap

theorem bsearch_sound {table : List (Str × Str)} {key : List Nat} {f : Str} :
    ∀ (fuel l u : Nat), bsearch table key fuel l u = some f → ∃ e ∈ table, bytes e.1 = key ∧ e.2 = f
  | 0, _, _, h => by simp [bsearch] at h
  | fuel + 1, l, u, h => by
    rw [bsearch] at h
    split at h
    · simp only at h
      split at h
      · cases h
      · rename_i e he
        split at h
        · exact bsearch_sound _ _ _ h
        · exact bsearch_sound _ _ _ h
        · rename_i hc
          cases h
          exact ⟨e, List.mem_of_getElem? he, (strcmp_eq.1 hc).symm, rfl⟩
    · cases h

theorem bsearch_complete {table : List (Str × Str)} (hs : table.Pairwise fun a b => strcmp (bytes a.1) (bytes b.1) = .lt)
    {i : Nat} {e : Str × Str} (hi : table[i]? = some e) :
    ∀ (fuel l u : Nat), l ≤ i → i < u → u ≤ table.length → u - l < fuel → bsearch table (bytes e.1) fuel l u = some e.2
  | 0, _, _, _, _, _, h => by omega
  | fuel + 1, l, u, h1, h2, h3, h4 => by
    rw [bsearch, if_pos (by omega)]
    have hm : (l + u) / 2 < table.length := by omega
    simp only [List.getElem?_eq_getElem hm]
    obtain ⟨hi', he⟩ := List.getElem?_eq_some_iff.1 hi
    rw [List.pairwise_iff_getElem] at hs
    rcases Nat.lt_trichotomy i ((l + u) / 2) with h | h | h
    · have := hs _ _ hi' hm h
      rw [he] at this
      rw [this]
      exact bsearch_complete (List.pairwise_iff_getElem.2 hs) hi fuel l _ h1 h (by omega) (by omega)
    · subst h
      rw [he, strcmp_eq.2 rfl]
    · have := hs _ _ hm hi' h
      rw [he] at this
      rw [strcmp_swap.1 this]
      exact bsearch_complete (List.pairwise_iff_getElem.2 hs) hi fuel _ u h h2 h3 (by omega)

theorem mem_insertLine {e d : Str × Str} : ∀ {l : List (Str × Str)}, d ∈ insertLine e l ↔ d = e ∨ d ∈ l
  | [] => by simp [insertLine]
  | x :: l => by
    rw [insertLine]
    split
    · rw [List.mem_cons, mem_insertLine, List.mem_cons]
      constructor
      · rintro (h | h | h) <;> simp [h]
      · rintro (h | h | h) <;> simp [h]
    · rw [List.mem_cons]

theorem mem_sorted {d : Str × Str} (l : List (Str × Str)) : d ∈ l.foldr insertLine [] ↔ d ∈ l := by
  induction l with
  | nil => simp
  | cons e l ih => rw [List.foldr_cons, mem_insertLine, ih, List.mem_cons]

theorem mem_commands {name f : Str} : (name, f) ∈ commands ↔ Names name f := by
  unfold commands lines Names
  rw [List.mem_map]
  constructor
  · rintro ⟨e, he, h⟩
    rw [mem_sorted, List.mem_map] at he
    obtain ⟨i, hi, rfl⟩ := he
    cases h
    exact ⟨i, hi, rfl, rfl⟩
  · rintro ⟨i, hi, rfl, rfl⟩
    exact ⟨_, (mem_sorted _).2 (List.mem_map.2 ⟨i, hi, rfl⟩), rfl⟩

theorem names_chars {name f : Str} (h : Names name f) : name ≠ [] ∧ name.head? ≠ some '-' ∧ ∀ c ∈ name, ('a' ≤ c ∧ c ≤ 'z') ∨ c = '-' := by
  obtain ⟨i, hi, rfl, -⟩ := h
  obtain ⟨h1, h2, h3⟩ := identifiers_chars i hi
  refine ⟨by simpa using h1, ?_, ?_⟩
  · cases i with
    | nil => exact absurd rfl h1
    | cons c i =>
      have h3 := h3 c (by simp)
      simp only [List.head?_cons, ne_eq, Option.some.injEq, List.map_cons] at h2 ⊢
      rw [if_neg h2]
      rintro rfl
      rcases h3 with h3 | h3
      · exact absurd h3 (by decide)
      · exact absurd h3 (by decide)
  · intro c hc
    obtain ⟨d, hd, rfl⟩ := List.mem_map.1 hc
    rcases h3 d hd with h | h
    · by_cases hu : d = '_'
      · simp [hu]
      · simp [hu, h]
    · simp [h]

theorem names_ascii {name f : Str} (h : Names name f) : ∀ c ∈ name, c.toNat < 128 := by
  intro c hc
  rcases (names_chars h).2.2 c hc with h | rfl
  · have : c.toNat ≤ 'z'.toNat := h.2
    have : 'z'.toNat = 122 := rfl
    omega
  · decide

theorem find_name {name f : Str} (h : Names name f) : getCommandFromName (bytes name) = some f := by
  obtain ⟨i, hi⟩ := List.getElem?_of_mem (mem_commands.2 h)
  have := (List.getElem?_eq_some_iff.1 hi).1
  exact bsearch_complete commands_sorted hi _ 0 _ (by omega) this (Nat.le_refl _) (by omega)

theorem find_sound {mbs : List Nat} {f : Str} (h : getCommandFromName mbs = some f) : ∃ name, bytes name = mbs ∧ Names name f := by
  obtain ⟨e, h1, h2, h3⟩ := bsearch_sound _ _ _ h
  exact ⟨e.1, h2, mem_commands.1 (h3 ▸ h1)⟩

theorem name_of {f name : Str} (h : Names name f) : ∃ name', getCommandName f = some name' ∧ Names name' f := by
  unfold getCommandName
  cases hf : commands.find? fun e => e.2 = f with
  | none =>
    have := List.find?_eq_none.1 hf (name, f) (mem_commands.2 h)
    simp at this
  | some e =>
    refine ⟨e.1, rfl, mem_commands.1 ?_⟩
    have h1 := List.mem_of_find?_eq_some hf
    have h2 := List.find?_some hf
    simp only [decide_eq_true_eq] at h2
    rw [← h2]
    exact h1

theorem name_sound {f name : Str} (h : getCommandName f = some name) : Names name f := by
  unfold getCommandName at h
  obtain ⟨e, hf, rfl⟩ := Option.map_eq_some_iff.1 h
  have h1 := List.mem_of_find?_eq_some hf
  have h2 := List.find?_some hf
  simp only [decide_eq_true_eq] at h2
  rw [← h2]
  exact mem_commands.1 h1

/-! ## The bindings -/

attribute [local irreducible] commands printAllCommands getCommandFromName getCommandName identifiers

/-- What is true of all reachable states. -/
structure Ok (s : State) : Prop where
  good : ∀ m, Trie.Good ltChar (s.keymap m)
  empty : ∀ m, Trie.val (s.keymap m) [] = none
  named : ∀ m k f, Trie.val (s.keymap m) k = some f → ∃ name, Names name f

theorem bound_val {s : State} (h : Ok s) (m : Mode) (k : Str) : bound s m k = Trie.val (s.keymap m) k := by
  obtain ⟨r, h1, h2, h3, -⟩ := Trie.get_spec ltChar_ok k _ (h.good m)
  rw [bound, h1]
  simp only
  cases hx : r.exact with
  | none =>
    have := h2 hx k.length (Nat.le_refl _)
    rw [List.take_length] at this
    rw [this]
    split <;> rfl
  | some f =>
    obtain ⟨g1, g2, g3⟩ := h3 f hx
    split
    · rename_i hl
      rw [hl, List.take_length] at g2
      exact g2.symm
    · have := g3 k.length (by omega) (Nat.le_refl _)
      rw [List.take_length] at this
      exact this.symm

theorem put_keymap (s : State) (m n : Mode) (t : Trie.Node Char Str) : (s.put m t).keymap n = if n = m then t else s.keymap n := rfl

theorem ok_set {s : State} (h : Ok s) (m : Mode) {key f name : Str} (hk : key ≠ []) (hf : Names name f) :
    ∃ t, Trie.set ltChar (s.keymap m) key f = some t ∧ Ok (s.put m t) ∧
      ∀ m' k, bound (s.put m t) m' k = if m' = m ∧ k = key then some f else bound s m' k := by
  obtain ⟨t, h1, h2, h3⟩ := Trie.set_spec ltChar_ok key (s.keymap m) f (h.good m)
  have ok : Ok (s.put m t) := by
    refine ⟨fun n => ?_, fun n => ?_, fun n k g hg => ?_⟩
    · rw [put_keymap]; split
      · exact h2
      · exact h.good n
    · rw [put_keymap]; split
      · rw [h3, if_neg (fun e => hk e.symm), h.empty]
      · exact h.empty n
    · rw [put_keymap] at hg
      split at hg
      · rw [h3] at hg
        split at hg
        · cases hg; exact ⟨name, hf⟩
        · exact h.named m k g hg
      · exact h.named n k g hg
  refine ⟨t, h1, ok, fun m' k => ?_⟩
  rw [bound_val ok, bound_val h, put_keymap]
  by_cases hm : m' = m
  · subst hm
    simp only [if_true, true_and, h3]
  · simp [hm]

theorem ok_remove {s : State} (h : Ok s) (m : Mode) (key : Str) :
    ∃ t, Trie.remove ltChar (s.keymap m) key = some t ∧ Ok (s.put m t) ∧
      ∀ m' k, bound (s.put m t) m' k = if m' = m ∧ k = key then none else bound s m' k := by
  obtain ⟨t, h1, h2, h3⟩ := Trie.remove_spec ltChar_ok key (s.keymap m) (h.good m)
  have ok : Ok (s.put m t) := by
    refine ⟨fun n => ?_, fun n => ?_, fun n k g hg => ?_⟩
    · rw [put_keymap]; split
      · exact h2
      · exact h.good n
    · rw [put_keymap]; split
      · rw [h3, h.empty]; split <;> rfl
      · exact h.empty n
    · rw [put_keymap] at hg
      split at hg
      · rw [h3] at hg
        split at hg
        · cases hg
        · exact h.named m k g hg
      · exact h.named n k g hg
  refine ⟨t, h1, ok, fun m' k => ?_⟩
  rw [bound_val ok, bound_val h, put_keymap]
  by_cases hm : m' = m
  · subst hm
    simp only [if_true, true_and, h3]
  · simp [hm]

/-! ## The initial bindings -/

/-- The same as `Ok`, for one trie. -/
theorem fold_set : ∀ (l : List (Str × Str)) (t : Trie.Node Char Str), Trie.Good ltChar t →
    (l.Pairwise fun a b => a.1 ≠ b.1) →
    ∃ t', l.foldlM (fun t e => Trie.set ltChar t e.1 (function e.2)) t = some t' ∧ Trie.Good ltChar t' ∧
      (∀ e ∈ l, Trie.val t' e.1 = some (function e.2)) ∧ ∀ k, (∀ e ∈ l, e.1 ≠ k) → Trie.val t' k = Trie.val t k
  | [], t, h, _ => ⟨t, rfl, h, by simp, fun _ _ => rfl⟩
  | e :: l, t, h, hd => by
    obtain ⟨hd1, hd2⟩ := List.pairwise_cons.1 hd
    obtain ⟨t1, h1, h2, h3⟩ := Trie.set_spec ltChar_ok e.1 t (function e.2) h
    obtain ⟨t2, g1, g2, g3, g4⟩ := fold_set l t1 h2 hd2
    refine ⟨t2, by rw [List.foldlM_cons, h1]; exact g1, g2, ?_, ?_⟩
    · intro x hx
      rcases List.mem_cons.1 hx with rfl | hx
      · rw [g4 _ (fun y hy => (hd1 y hy).symm), h3, if_pos rfl]
      · exact g3 x hx
    · intro k hk
      rw [g4 k (fun y hy => hk y (by simp [hy])), h3, if_neg (fun e' => hk e (by simp) e'.symm)]

theorem initial_trie (m : Mode) : ∃ t, initialTrie m = some t ∧ Trie.Good ltChar t ∧
    (∀ e ∈ initialKeys m, Trie.val t e.1 = some (function e.2)) ∧ ∀ k, (∀ e ∈ initialKeys m, e.1 ≠ k) → Trie.val t k = none := by
  obtain ⟨t, h1, h2, h3, h4⟩ := fold_set (initialKeys m) Trie.create Trie.good_create (initial_distinct m)
  exact ⟨t, h1, h2, h3, fun k hk => by rw [h4 k hk, Trie.val_create]⟩

theorem ok_initial {s : State} (h : ∀ m, initialTrie m = some (s.keymap m)) : Ok s := by
  have key : ∀ m, Trie.Good ltChar (s.keymap m) ∧
      (∀ e ∈ initialKeys m, Trie.val (s.keymap m) e.1 = some (function e.2)) ∧ ∀ k, (∀ e ∈ initialKeys m, e.1 ≠ k) → Trie.val (s.keymap m) k = none := by
    intro m
    obtain ⟨t, h1, h2⟩ := initial_trie m
    have : t = s.keymap m := Option.some.inj (h1.symm.trans (h m))
    subst this
    exact h2
  refine ⟨fun m => (key m).1, fun m => (key m).2.2 [] fun e he => (initial_named m e he).1, fun m k f hf => ?_⟩
  by_cases hk : ∃ e ∈ initialKeys m, e.1 = k
  · obtain ⟨e, he, rfl⟩ := hk
    rw [(key m).2.1 e he] at hf
    cases hf
    exact ⟨_, e.2, (initial_named m e he).2, rfl, rfl⟩
  · have := (key m).2.2 k (fun e he h => hk ⟨e, he, h⟩)
    rw [this] at hf
    cases hf

/-! ## Any invocation -/

theorem set_binding (C : Config) {s : State} (h : Ok s) (m : Mode) (key name : Str) :
    ∃ st s', setKeyBinding C m key name s = some ([], st, s') ∧ Ok s' ∧
      (s' = s ∨ (st = .success ∧ key ≠ [] ∧
        ((name = ['-'] ∧ ∀ m' k, bound s' m' k = if m' = m ∧ k = key then none else bound s m' k) ∨
          ∃ f, getCommandFromName <$> C.encode name = some (some f) ∧ ∀ m' k, bound s' m' k = if m' = m ∧ k = key then some f else bound s m' k))) := by
  rw [setKeyBinding]
  cases key with
  | nil => exact ⟨_, _, rfl, h, .inl rfl⟩
  | cons c key =>
    simp only [List.isEmpty_cons, Bool.false_eq_true, if_false]
    split
    · rename_i hn
      obtain ⟨t, h1, h2, h3⟩ := ok_remove h m (c :: key)
      rw [h1]
      exact ⟨_, _, rfl, h2, .inr ⟨rfl, by simp, .inl ⟨hn, h3⟩⟩⟩
    · cases he : C.encode name with
      | none => exact ⟨_, _, rfl, h, .inl rfl⟩
      | some mbs =>
        cases hc : getCommandFromName mbs with
        | none => simp only [hc]; exact ⟨_, _, rfl, h, .inl rfl⟩
        | some f =>
          obtain ⟨n, -, hn⟩ := find_sound hc
          obtain ⟨t, h1, h2, h3⟩ := ok_set h m (key := c :: key) (by simp) hn
          simp only [hc, h1]
          exact ⟨_, _, rfl, h2, .inr ⟨rfl, by simp, .inr ⟨f, by simp [hc], h3⟩⟩⟩

/-! ## Printing -/

/-- The words of a line and their values. -/
def words (C : Config) (m : Mode) (key name : Str) : List (Str × Str) :=
  ("bindkey".toList, "bindkey".toList) :: (['-', modechar m], ['-', modechar m]) ::
    ((if key.head? = some '-' then [("--".toList, "--".toList)] else []) ++ [(quoteAsWord C.locale key, key), (name, name)])

theorem print_main (C : Config) (m : Mode) (key : Str) {f name : Str} (h : getCommandName f = some name) :
    printBindingMain C m key f = some (lineOf ((words C m key name).map (·.1))) := by
  unfold printBindingMain words
  generalize getCommandName f = g at h
  subst h
  generalize quoteAsWord C.locale key = q
  generalize modechar m = c
  by_cases hk : key.head? = some '-'
  · rw [if_pos hk]
    simp only [if_pos hk]
    simp [lineOf]
  · rw [if_neg hk]
    simp only [if_neg hk]
    simp [lineOf]

theorem get_bound {s : State} (h : Ok s) (m : Mode) (key : Str) :
    ∃ r, Trie.get ltChar (s.keymap m) key = some r ∧ bound s m key = if r.matchlength = key.length then r.exact else none := by
  obtain ⟨r, h1, -⟩ := Trie.get_spec ltChar_ok key _ (h.good m)
  refine ⟨r, h1, ?_⟩
  rw [bound, h1]

theorem print_one (C : Config) {s : State} (h : Ok s) (m : Mode) (key : Str) :
    (∃ f name, bound s m key = some f ∧ getCommandName f = some name ∧ printBinding C m key s = some (lineOf ((words C m key name).map (·.1)), .success, s)) ∨
      (bound s m key = none ∧ printBinding C m key s = some ([], .failure, s)) := by
  obtain ⟨r, h1, h2⟩ := get_bound h m key
  rw [printBinding, h1, h2]
  simp only
  cases hx : r.exact with
  | none => right; exact ⟨by split <;> rfl, rfl⟩
  | some f =>
    by_cases hl : r.matchlength = key.length
    · left
      have hb : bound s m key = some f := by rw [h2, if_pos hl, hx]
      rw [bound_val h] at hb
      obtain ⟨n, hn⟩ := h.named m key f hb
      obtain ⟨name, hg, -⟩ := name_of hn
      refine ⟨f, name, by rw [if_pos hl], hg, ?_⟩
      simp only [if_pos hl, print_main C m key hg, Option.map_some]
    · right
      simp only [if_neg hl, and_self]

/-- The listing of a list of bindings. -/
theorem visit_lines (C : Config) (m : Mode) : ∀ (l : List (Str × Str)) (o : Str), (∀ e ∈ l, ∃ name, Names name e.2) →
    (Trie.visit (fun out key cmd => (out.bind fun o => (printBindingMain C m key cmd).map (o ++ ·), 0)) (some o) l).1 =
      some (o ++ l.flatMap fun e => lineOf ((words C m e.1 ((getCommandName e.2).getD [])).map (·.1)))
  | [], o, _ => by simp [Trie.visit]
  | e :: l, o, h => by
    obtain ⟨n, hn⟩ := h e (by simp)
    obtain ⟨name, hg, -⟩ := name_of hn
    simp only [Trie.visit, print_main C m e.1 hg, Option.bind_some, Option.map_some, ne_eq, not_true_eq_false, if_false]
    rw [visit_lines C m l _ (fun x hx => h x (by simp [hx]))]
    simp [hg, List.append_assoc]

theorem print_all (C : Config) {s : State} (h : Ok s) (m : Mode) :
    printAll C m (s.keymap m) = some ((Trie.flat (s.keymap m)).flatMap fun e => lineOf ((words C m e.1 ((getCommandName e.2).getD [])).map (·.1))) := by
  rw [printAll, Trie.foreach_flat]
  rw [show (Trie.flat (s.keymap m)).map (fun p => (([] : List Char) ++ p.1, p.2)) = Trie.flat (s.keymap m) from by simp]
  rw [visit_lines C m _ [] ?_]
  · rfl
  · intro e he
    exact h.named m e.1 e.2 ((Trie.mem_flat ltChar_ok (h.good m) e.1 e.2).1 he)

theorem builtin_ok {C : Config} {args : List Str} {s s' : State} {out : Str} {st : Status} (h : Ok s) (hb : bindkeyBuiltin C args s = some (out, st, s')) :
    Ok s' ∧ (s' = s ∨ ∃ m key name, (Xgetopt.Spec.parse C.getopt none args).operands = [key, name] ∧ selected (Xgetopt.Spec.parse C.getopt none args).reports = some m ∧
      setKeyBinding C m key name s = some (out, st, s')) := by
  unfold bindkeyBuiltin at hb
  simp only at hb
  split at hb
  · cases hb
  · split at hb
    · cases hb; exact ⟨h, .inl rfl⟩
    · split at hb
      · split at hb
        · cases hb; exact ⟨h, .inl rfl⟩
        · split at hb <;> (cases hb; exact ⟨h, .inl rfl⟩)
      · split at hb
        · cases hb; exact ⟨h, .inl rfl⟩
        · rename_i m hm
          split at hb
          · rw [print_all C h m] at hb
            cases hb; exact ⟨h, .inl rfl⟩
          · rename_i key _
            rcases print_one C h m key with ⟨_, _, -, -, hp⟩ | ⟨-, hp⟩ <;> (rw [hp] at hb; cases hb; exact ⟨h, .inl rfl⟩)
          · rename_i key name ho
            obtain ⟨_, _, hp, hok, -⟩ := set_binding C h m key name
            have := hb
            rw [hp] at this
            cases this
            exact ⟨hok, .inr ⟨m, key, name, ho, hm, hb⟩⟩
          · cases hb; exact ⟨h, .inl rfl⟩

theorem reachable_ok {s : State} (h : Reachable s) : Ok s := by
  induction h with
  | initial h => exact ok_initial h
  | step _ h ih => exact (builtin_ok ih h).1

end Yash.Bindkey
