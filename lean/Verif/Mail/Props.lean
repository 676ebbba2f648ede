import Verif.Mail.Spec
/-! # Property C85: mail checking -/
set_option autoImplicit false

namespace Yash.Mail

open Spec

/-! ## Reading `MAILPATH` -/

theorem parse_path {p t : Str} (h : PathText p t) : ∀ (acc rest : Str), parseElement acc (t ++ '%' :: rest) = (acc.reverse ++ p, rest) ∧ parseElement acc t = (acc.reverse ++ p, []) := by
  induction h with
  | nil => intro acc rest; simp [parseElement]
  | @chr c p t h1 h2 h3 _ ih =>
    intro acc rest
    have := ih (c :: acc) rest
    constructor
    · rw [List.cons_append, parseElement]
      · simpa using this.1
      · exact h2
      · intro e; exact absurd e h3
      · intro d r e; exact absurd e h3
    · rw [parseElement]
      · simpa using this.2
      · exact h2
      · intro e; exact absurd e h3
      · intro d r e; exact absurd e h3
  | @esc c p t _ ih =>
    intro acc rest
    have := ih (c :: acc) rest
    constructor
    · rw [List.cons_append, List.cons_append, parseElement]
      simpa using this.1
    · rw [parseElement]
      simpa using this.2

theorem parse_elementText {x : Element} {t : Str} (h : ElementText x t) : parseElement [] t = (x.1, x.2.getD []) := by
  cases h with
  | plain hp => exact (parse_path hp [] []).2
  | message hp _ => exact (parse_path hp [] _).1

theorem components_path {p t : Str} (h : PathText p t) : ∀ (acc rest : Str), components acc (t ++ rest) = components (t.reverse ++ acc) rest := by
  induction h with
  | nil => intro acc rest; rfl
  | @chr c p t h1 h2 h3 _ ih =>
    intro acc rest
    rw [List.cons_append, components, ih]
    · simp
    · exact h1
    · intro e; exact absurd e h3
    · intro d r e; exact absurd e h3
  | @esc c p t _ ih =>
    intro acc rest
    rw [List.cons_append, List.cons_append, components, ih]
    simp

theorem components_message {m : Str} (h : MessageText m) : ∀ (acc rest : Str), components acc (m ++ rest) = components (m.reverse ++ acc) rest := by
  induction h with
  | nil => intro acc rest; rfl
  | @chr c m h1 h2 _ ih =>
    intro acc rest
    rw [List.cons_append, components, ih]
    · simp
    · exact h1
    · intro e; exact absurd e h2
    · intro d r e; exact absurd e h2
  | @esc c m _ ih =>
    intro acc rest
    rw [List.cons_append, List.cons_append, components, ih]
    simp

theorem components_element {x : Element} {t : Str} (h : ElementText x t) (rest : Str) : components [] (t ++ rest) = components t.reverse rest := by
  cases h with
  | plain hp => rw [components_path hp]; simp
  | @message p t m hp hm =>
    rw [List.append_assoc, components_path hp, List.cons_append, components, components_message hm]
    · simp
    · decide
    · intro e; exact absurd e (by decide)
    · intro d r e; exact absurd e (by decide)

theorem components_writes {xs : List Element} {v : Str} (h : Writes xs v) : WritesArray xs (components [] v) := by
  induction h with
  | one h =>
    have := components_element h []
    rw [List.append_nil] at this
    rw [this, components, List.reverse_reverse]
    exact .cons h .nil
  | cons h _ ih =>
    rw [components_element h, components, List.reverse_reverse]
    exact .cons h ih

theorem writes_esc (c : Char) {xs : List Element} {t : Str} (h : Writes xs t) : ∃ xs', Writes xs' ('\\' :: c :: t) := by
  cases h with
  | one h =>
    cases h with
    | plain hp => exact ⟨_, .one (.plain (.esc hp))⟩
    | message hp hm => exact ⟨_, .one (.message (.esc hp) hm)⟩
  | cons h hw =>
    cases h with
    | plain hp => exact ⟨_, .cons (.plain (.esc hp)) hw⟩
    | message hp hm => exact ⟨_, .cons (.message (.esc hp) hm) hw⟩

theorem writes_chr {c : Char} (h1 : c ≠ ':') (h2 : c ≠ '%') (h3 : c ≠ '\\') {xs : List Element} {t : Str} (h : Writes xs t) : ∃ xs', Writes xs' (c :: t) := by
  cases h with
  | one h =>
    cases h with
    | plain hp => exact ⟨_, .one (.plain (.chr h1 h2 h3 hp))⟩
    | message hp hm => exact ⟨_, .one (.message (.chr h1 h2 h3 hp) hm)⟩
  | cons h hw =>
    cases h with
    | plain hp => exact ⟨_, .cons (.plain (.chr h1 h2 h3 hp)) hw⟩
    | message hp hm => exact ⟨_, .cons (.message (.chr h1 h2 h3 hp) hm) hw⟩

/-- Every value of `MAILPATH` can be read in this way, up to a backslash at its end. -/
theorem every_value (v : Str) : ∃ xs t, Writes xs t ∧ (v = t ∨ v = t ++ ['\\']) := by
  -- what the text after some place means, when a path or a message begins there
  have key : ∀ (n : Nat) (v : Str), v.length ≤ n →
      (∃ xs t, Writes xs t ∧ (v = t ∨ v = t ++ ['\\'])) ∧
      (∃ m, MessageText m ∧ ((v = m ∨ v = m ++ ['\\']) ∨ ∃ xs t r, Writes xs t ∧ v = m ++ ':' :: r ∧ (r = t ∨ r = t ++ ['\\']))) := by
    intro n
    induction n with
    | zero =>
      intro v hv
      have : v = [] := by simpa using hv
      subst this
      exact ⟨⟨_, _, .one (.plain .nil), .inl rfl⟩, ⟨[], .nil, .inl (.inl rfl)⟩⟩
    | succ n ih =>
      intro v hv
      match v, hv with
      | [], _ => exact ⟨⟨_, _, .one (.plain .nil), .inl rfl⟩, ⟨[], .nil, .inl (.inl rfl)⟩⟩
      | c :: v, hv =>
        have hl : v.length ≤ n := by simpa using hv
        obtain ⟨⟨xs, t, h1, h2⟩, ⟨m, h3, h4⟩⟩ := ih v hl
        by_cases hb : c = '\\'
        · subst hb
          match v, hl with
          | [], _ => exact ⟨⟨_, _, .one (.plain .nil), .inr rfl⟩, ⟨[], .nil, .inl (.inr rfl)⟩⟩
          | d :: w, hl =>
            obtain ⟨⟨xs, t, h1, h2⟩, ⟨m, h3, h4⟩⟩ := ih w (by simp at hl; omega)
            refine ⟨?_, ⟨'\\' :: d :: m, .esc h3, ?_⟩⟩
            · obtain ⟨xs', hw⟩ := writes_esc d h1
              exact ⟨xs', _, hw, by rcases h2 with rfl | rfl <;> simp⟩
            · rcases h4 with h4 | ⟨xs, t, r, g1, g2, g3⟩
              · left; rcases h4 with rfl | rfl <;> simp
              · right; exact ⟨xs, t, r, g1, by simp [g2], g3⟩
        · by_cases hc : c = ':'
          · subst hc
            refine ⟨⟨_, _, .cons (.plain .nil) h1, by rcases h2 with rfl | rfl <;> simp⟩, ⟨[], .nil, .inr ⟨xs, t, v, h1, rfl, h2⟩⟩⟩
          · refine ⟨?_, ⟨c :: m, .chr hc hb h3, ?_⟩⟩
            · by_cases hp : c = '%'
              · subst hp
                rcases h4 with h4 | ⟨xs, t, r, g1, g2, g3⟩
                · exact ⟨_, _, .one (.message .nil h3), by rcases h4 with rfl | rfl <;> simp⟩
                · exact ⟨_, _, .cons (.message .nil h3) g1, by subst g2; rcases g3 with rfl | rfl <;> simp⟩
              · obtain ⟨xs', hw⟩ := writes_chr hc hp hb h1
                exact ⟨xs', _, hw, by rcases h2 with rfl | rfl <;> simp⟩
            · rcases h4 with h4 | ⟨xs, t, r, g1, g2, g3⟩
              · left; rcases h4 with rfl | rfl <;> simp
              · right; exact ⟨xs, t, r, g1, by simp [g2], g3⟩
  exact (key v.length v (Nat.le_refl _)).1

/-! ## Looking at files -/

theorem getFile_lookup (files : List (Path × Time)) (p : Path) : getFile files p = files.lookup p := by
  unfold getFile
  induction files with
  | nil => rfl
  | cons f files ih =>
    by_cases h : f.1 = p
    · subst h; simp [List.lookup]
    · have h1 : (f.1 == p) = false := by simpa using h
      have h2 : (p == f.1) = false := by simpa using fun e => h e.symm
      rw [List.find?_cons, h1, List.lookup, h2]
      exact ih

theorem lookup_set (files : List (Path × Time)) (p q : Path) (t : Time) : (setFile files p t).lookup q = if q = p then some t else files.lookup q := by
  unfold setFile
  rw [List.lookup]
  by_cases h : q = p
  · subst h; simp
  · have h2 : (q == p) = false := by simpa using h
    rw [h2, if_neg h]
    simp only
    induction files with
    | nil => rfl
    | cons f files ih =>
      by_cases hf : f.1 = p
      · have h3 : (q == f.1) = false := by rw [hf]; exact h2
        rw [List.filter_cons_of_neg (by simpa using hf), List.lookup, h3]
        exact ih
      · rw [List.filter_cons_of_pos (by simpa using hf), List.lookup, List.lookup]
        cases (q == f.1)
        · exact ih
        · rfl

/-- There is news about the file, given the table. -/
def NewsIn (e : Event) (files : List (Path × Time)) (p : Path) : Prop := HasMail e p ∧ ∃ t, files.lookup p = some t ∧ t ≠ mtime e p

open Classical in
theorem update_eq (e : Event) (p : Path) (files : List (Path × Time)) : isUpdate e p files = (setFile files p (mtime e p), decide (NewsIn e files p)) := by
  have hm : ((e.stat p).getD ⟨0, ⟨0, 0⟩⟩).mtime = mtime e p := by
    unfold mtime
    cases e.stat p <;> rfl
  unfold isUpdate
  simp only [hm, getFile_lookup]
  congr 1
  rw [Bool.eq_iff_iff, decide_eq_true_iff]
  unfold NewsIn HasMail
  cases hf : files.lookup p with
  | none => simp
  | some t =>
    cases hs : e.stat p with
    | none => simp [mtime, hs]
    | some i =>
      simp only [mtime, hs, Option.getD_some, Bool.and_eq_true, Bool.or_eq_true, decide_eq_true_iff, Option.some.injEq, exists_eq_left']
      have : (i.mtime.sec ≠ t.sec ∨ i.mtime.nsec ≠ t.nsec) ↔ t ≠ i.mtime := by
        obtain ⟨s, n⟩ := t
        obtain ⟨z, ⟨s', n'⟩⟩ := i
        simp only [ne_eq, Time.mk.injEq]
        omega
      rw [this]
      grind

/-- The files one after another. -/
def lookAll (e : Event) : List (Path × Message) → List (Path × Time) → List (Path × Time) × List Message
  | [], files => (files, [])
  | x :: xs, files =>
    let r := lookAll e xs (isUpdate e x.1 files).1
    (r.1, (if (isUpdate e x.1 files).2 then [x.2] else []) ++ r.2)

theorem handle_all (C : Config) (e : Event) {xs : List Element} {l : List Str} (h : WritesArray xs l) :
    ∀ files, handleAll C e l files = lookAll e (xs.map fun x => (C.encode x.1, messageOf x.2)) files := by
  induction h with
  | nil => intro files; rfl
  | @cons x xs t ts hx _ ih =>
    intro files
    have hm : (if (x.2.getD []).isEmpty then Message.newMail else .text (x.2.getD [])) = messageOf x.2 := by
      cases x.2 with
      | none => rfl
      | some m => cases m <;> rfl
    simp only [handleAll, handleElement, parse_elementText hx, hm, ih, List.map_cons, lookAll]

theorem all_seen (e : Event) : ∀ (els : List (Path × Message)) (files : List (Path × Time)) (p : Path),
    (lookAll e els files).1.lookup p = if p ∈ els.map (·.1) then some (mtime e p) else files.lookup p
  | [], files, p => by simp [lookAll]
  | x :: els, files, p => by
    rw [lookAll]
    simp only [all_seen e els, update_eq, lookup_set, List.map_cons, List.mem_cons]
    by_cases h1 : p ∈ els.map (·.1)
    · simp [h1]
    · by_cases h2 : p = x.1
      · simp [h1, h2]
      · simp [h1, h2]

open Classical in
theorem all_out (e : Event) : ∀ (els : List (Path × Message)) (files : List (Path × Time)),
    (lookAll e els files).2 = ((firsts els).filter fun x => decide (NewsIn e files x.1)).map (·.2)
  | [], _ => rfl
  | x :: els, files => by
    have hn : ∀ q, NewsIn e (setFile files x.1 (mtime e x.1)) q ↔ q ≠ x.1 ∧ NewsIn e files q := by
      intro q
      unfold NewsIn
      rw [lookup_set]
      by_cases h : q = x.1
      · subst h; simp
      · simp [h]
    rw [lookAll, firsts]
    simp only [all_out e els, update_eq, hn]
    rw [List.filter_cons, List.filter_filter]
    have : (fun a : Path × Message => decide (NewsIn e files a.1) && decide (a.1 ≠ x.1)) = fun a => decide (a.1 ≠ x.1 ∧ NewsIn e files a.1) := by
      funext a
      rw [Bool.eq_iff_iff]
      simp [and_comm]
    rw [this]
    split <;> simp

/-! ## When mail is checked -/

theorem time_due {C : Config} {e : Event} {s : State} {t : Int} (h : Due C e s) (ht : e.now = some t) : isTime C e s = ({ s with last := t }, true) := by
  obtain ⟨n, t', ⟨h1, v, hv, h2, h3⟩, h4, h5⟩ := h
  rw [ht] at h4
  cases h4
  unfold isTime
  rw [h2]
  cases v with
  | nil => exact absurd rfl hv
  | cons c v =>
    simp only [h3, ht]
    rw [if_neg (by omega), if_neg (by omega)]

theorem time_early {C : Config} {e : Event} {s : State} {n : Int} (h : Interval C e n) (hd : ¬Due C e s) : isTime C e s = (s, false) := by
  have h' := h
  obtain ⟨h1, v, hv, h2, h3⟩ := h
  unfold isTime
  rw [h2]
  cases v with
  | nil => exact absurd rfl hv
  | cons c v =>
    simp only [h3]
    rw [if_neg (by omega)]
    cases ht : e.now with
    | none => rfl
    | some t =>
      simp only
      rw [if_pos]
      apply Int.lt_of_not_ge
      intro hge
      exact hd ⟨n, t, h', ht, hge⟩

theorem time_off {C : Config} {e : Event} {s : State} (h : ¬∃ n, Interval C e n) : isTime C e s = (inactivate s, false) := by
  unfold isTime
  split
  · rfl
  · rfl
  · rename_i v hv h2
    split
    · rfl
    · rename_i n hn
      split
      · rfl
      · rename_i h3
        exact absurd ⟨n, by omega, v, hv, h2, hn⟩ h

/-- What a check does with files. -/
theorem check_lookAll {C : Config} {e : Event} {s : State} {t : Int} {els : List (Path × Message)} (hd : Due C e s) (ht : e.now = some t) (hl : Looks C e els) :
    checkMail C e s = (⟨some (lookAll e els (s.files.getD [])).1, t⟩, (lookAll e els (s.files.getD [])).2) := by
  unfold checkMail
  rw [time_due hd ht]
  simp only [if_true]
  unfold checkAndPrint
  cases hl with
  | scalar hv hw => simp only [hv, handle_all C e (components_writes hw), activate, Option.getD_some]
  | array hv hw => simp only [hv, handle_all C e hw, activate, Option.getD_some]
  | mail hv hm hp =>
    simp only [hv, hm, hp, activate, Option.getD_some, lookAll, List.append_nil]
    rfl

open Classical in
/-- When it is time to check, there is a message exactly for the files about which there is news, in the order in which they are listed and once for each file;
the time of the check and what was seen are remembered, and what was seen of other files is kept. -/
theorem check_looks {C : Config} {e : Event} {s : State} {t : Int} {els : List (Path × Message)} (hd : Due C e s) (ht : e.now = some t) (hl : Looks C e els) :
    (checkMail C e s).2 = ((firsts els).filter fun x => decide (News e s x.1)).map (·.2) ∧ (checkMail C e s).1.last = t ∧
      ∀ p, seen (checkMail C e s).1 p = if p ∈ els.map (·.1) then some (mtime e p) else seen s p := by
  rw [check_lookAll hd ht hl]
  exact ⟨all_out e els _, rfl, fun p => all_seen e els _ p⟩

/-- A call that comes too early prints nothing and changes nothing. -/
theorem check_early {C : Config} {e : Event} {s : State} (h : ∃ n, Interval C e n) (hd : ¬Due C e s) : checkMail C e s = (s, []) := by
  obtain ⟨n, h⟩ := h
  unfold checkMail
  rw [time_early h hd]
  rfl

/-- When mail checking is turned off, nothing is printed and everything that was seen is forgotten. -/
theorem check_off {C : Config} {e : Event} {s : State} (h : Off C e s) : (checkMail C e s).2 = [] ∧ ∀ p, seen (checkMail C e s).1 p = none := by
  have hi : ∀ s p, seen (inactivate s) p = none := by
    intro s p
    unfold inactivate seen
    split
    · rfl
    · rename_i h; rw [h]; rfl
  rcases h with h | ⟨hd, h1, h2⟩
  · unfold checkMail
    rw [time_off h]
    exact ⟨rfl, fun p => hi s p⟩
  · obtain ⟨n, t, h3, ht, h4⟩ := id hd
    unfold checkMail
    rw [time_due hd ht]
    simp only [if_true, checkAndPrint, h1, h2]
    exact ⟨trivial, fun p => hi _ p⟩

/-! ## Over time -/

/-- Nothing is known in the beginning, and there is never a message about files that are looked at for the first time. -/
theorem first_silent {C : Config} {e : Event} {s : State} {els : List (Path × Message)} (hd : Due C e s) (hl : Looks C e els) (hs : ∀ x ∈ els, seen s x.1 = none) :
    (checkMail C e s).2 = [] ∧ ∀ p, seen State.initial p = none := by
  classical
  obtain ⟨n, t, h3, ht, h4⟩ := id hd
  refine ⟨?_, fun p => rfl⟩
  rw [(check_looks hd ht hl).1, List.map_eq_nil_iff, List.filter_eq_nil_iff]
  intro x hx
  have hmem : ∀ (l : List (Path × Message)), x ∈ firsts l → x ∈ l := by
    intro l
    induction l with
    | nil => intro h; exact h
    | cons y l ih =>
      intro h
      rcases List.mem_cons.1 h with rfl | h
      · simp
      · exact List.mem_cons_of_mem _ (ih (List.mem_filter.1 h).1)
  have := hs x (hmem els hx)
  simp [News, this]

theorem elsewhere_seen {C : Config} {p : Path} : ∀ (es : List Event) (s : State), Elsewhere C p es s → seen (runAll C es s) p = seen s p
  | [], _, _ => rfl
  | e :: es, s, ⟨h1, h2, h3⟩ => by
    rw [runAll, elsewhere_seen es _ h3]
    by_cases hd : Due C e s
    · obtain ⟨els, hl, hp⟩ := h2 hd
      obtain ⟨n, t, h4, ht, h5⟩ := id hd
      rw [(check_looks hd ht hl).2.2, if_neg hp]
    · have hi : ∃ n, Interval C e n := by
        apply Classical.byContradiction
        intro hn
        exact h1 (.inl hn)
      rw [check_early hi hd]

open Classical in
/-- If a file was looked at, then in the next check that looks at it there is a message about it if and only if the file has mail and its modification time is
another one than at the first of the two, whatever happened in between. -/
theorem change_reported {C : Config} {e1 e2 : Event} {es : List Event} {s : State} {els1 els2 before after : List (Path × Message)} {p : Path} {m : Message}
    (hd1 : Due C e1 s) (hl1 : Looks C e1 els1) (hp1 : p ∈ els1.map (·.1)) (hes : Elsewhere C p es (checkMail C e1 s).1)
    (hd2 : Due C e2 (runAll C (e1 :: es) s)) (hl2 : Looks C e2 els2) (hp2 : firsts els2 = before ++ (p, m) :: after) :
    ∃ others : Path × Message → Bool, (checkMail C e2 (runAll C (e1 :: es) s)).2 =
      (before.filter others).map (·.2) ++ (if HasMail e2 p ∧ mtime e1 p ≠ mtime e2 p then [m] else []) ++ (after.filter others).map (·.2) := by
  obtain ⟨n1, t1, -, ht1, -⟩ := id hd1
  obtain ⟨n2, t2, -, ht2, -⟩ := id hd2
  have hs : seen (runAll C (e1 :: es) s) p = some (mtime e1 p) := by
    rw [runAll, elsewhere_seen es _ hes, (check_looks hd1 ht1 hl1).2.2, if_pos hp1]
  refine ⟨fun x => decide (News e2 (runAll C (e1 :: es) s) x.1), ?_⟩
  rw [(check_looks hd2 ht2 hl2).1, hp2, List.filter_append, List.filter_cons, List.map_append]
  have hn : News e2 (runAll C (e1 :: es) s) p ↔ HasMail e2 p ∧ mtime e1 p ≠ mtime e2 p := by
    unfold News
    rw [hs]
    simp
  simp only [decide_eq_true_iff, hn]
  split <;> simp

theorem early_same {C : Config} : ∀ (es : List Event) (s : State), Early C es s → runAll C es s = s
  | [], _, _ => rfl
  | e :: es, s, ⟨h1, h2, h3⟩ => by
    rw [runAll]
    rw [check_early h1 h2] at h3 ⊢
    exact early_same es s h3

/-- Between two checks at least the time of `MAILCHECK` passes, and no more is needed. -/
theorem due_again {C : Config} {e1 e2 : Event} {es : List Event} {s : State} {t1 : Int} {els : List (Path × Message)} (hd : Due C e1 s) (ht : e1.now = some t1) (hl : Looks C e1 els)
    (hes : Early C es (checkMail C e1 s).1) : Due C e2 (runAll C (e1 :: es) s) ↔ ∃ n t2, Interval C e2 n ∧ e2.now = some t2 ∧ n ≤ t2 - t1 := by
  rw [runAll, early_same es _ hes]
  unfold Due
  rw [(check_looks hd ht hl).2.1]

theorem mem_firsts {x : Path × Message} : ∀ {l : List (Path × Message)}, x ∈ firsts l → x ∈ l
  | [], h => h
  | y :: l, h => by
    rcases List.mem_cons.1 h with rfl | h
    · simp
    · exact List.mem_cons_of_mem _ (mem_firsts (List.mem_filter.1 h).1)

open Classical in
/-- Two checks in a row with the same variables: the messages are those of the files that have mail and were modified in between. -/
theorem changes_reported {C : Config} {e1 e2 : Event} {es : List Event} {s : State} {els : List (Path × Message)} (hd1 : Due C e1 s) (hl1 : Looks C e1 els)
    (hes : Early C es (checkMail C e1 s).1) (hd2 : Due C e2 (runAll C (e1 :: es) s)) (hl2 : Looks C e2 els) :
    (checkMail C e2 (runAll C (e1 :: es) s)).2 = ((firsts els).filter fun x => decide (HasMail e2 x.1 ∧ mtime e1 x.1 ≠ mtime e2 x.1)).map (·.2) := by
  obtain ⟨n1, t1, -, ht1, -⟩ := id hd1
  obtain ⟨n2, t2, -, ht2, -⟩ := id hd2
  rw [(check_looks hd2 ht2 hl2).1]
  congr 1
  apply List.filter_congr
  intro x hx
  have hs : seen (runAll C (e1 :: es) s) x.1 = some (mtime e1 x.1) := by
    rw [runAll, early_same es _ hes, (check_looks hd1 ht1 hl1).2.2, if_pos (List.mem_map_of_mem (mem_firsts hx))]
  simp only [News, hs, Option.some.injEq, exists_eq_left']

/-- If the names of the files are different, all of them count. -/
theorem firsts_distinct : ∀ {l : List (Path × Message)}, (l.map (·.1)).Nodup → firsts l = l
  | [], _ => rfl
  | x :: l, h => by
    rw [List.map_cons, List.nodup_cons] at h
    rw [firsts, firsts_distinct h.2, List.filter_eq_self.2]
    intro y hy
    simp only [decide_eq_true_iff]
    intro e
    exact h.1 (e ▸ List.mem_map_of_mem hy)

end Yash.Mail
