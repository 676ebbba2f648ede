import Verif.History.Spec
/-!
# Lemmas about lists of numbers
-/
set_option autoImplicit false

namespace Yash.History

open Yash.Spec.History

theorem le_of_mem_last {l : List Nat} (h : l.Pairwise (· < ·)) {x w : Nat} (hx : x ∈ l) (hw : l.getLast? = some w) : x ≤ w := by
  obtain ⟨ys, rfl⟩ := List.getLast?_eq_some_iff.mp hw
  rw [List.pairwise_append] at h
  simp only [List.mem_append, List.mem_singleton] at hx
  rcases hx with hx | rfl
  · exact Nat.le_of_lt (h.2.2 x hx w (by simp))
  · exact Nat.le_refl _

theorem le_of_head_mem {l : List Nat} (h : l.Pairwise (· < ·)) {x o : Nat} (hx : x ∈ l) (ho : l.head? = some o) : o ≤ x := by
  obtain ⟨ys, rfl⟩ := List.head?_eq_some_iff.mp ho
  rw [List.pairwise_cons] at h
  rcases List.mem_cons.mp hx with rfl | hx
  · exact Nat.le_refl _
  · exact Nat.le_of_lt (h.1 x hx)

theorem head_append {α : Type} {a b : List α} {o : α} (h : (a ++ b).head? = some o) (ha : a ≠ []) : a.head? = some o := by
  cases a with
  | nil => exact absurd rfl ha
  | cons x a => simpa using h

theorem last_append {α : Type} {a b : List α} {w : α} (h : (a ++ b).getLast? = some w) (hb : b ≠ []) : b.getLast? = some w := by
  rw [List.getLast?_append] at h
  obtain ⟨x, hx⟩ : ∃ x, b.getLast? = some x := by
    cases hb' : b.getLast? with
    | none => simp at hb'; exact absurd hb' hb
    | some x => exact ⟨x, rfl⟩
  rw [hx] at h ⊢
  simpa using h

/-- Both parts of numbers that have started again are there; otherwise the numbers increase. -/
theorem cyclic_cases {max : Nat} {ns : List Nat} (h : Cyclic max ns) {o w : Nat} (ho : ns.head? = some o) (hw : ns.getLast? = some w) :
    (o ≤ w ∧ ns.Pairwise (· < ·)) ∨
    (w < o ∧ ∃ a b, ns = a ++ b ∧ a ≠ [] ∧ b ≠ [] ∧ a.Pairwise (· < ·) ∧ b.Pairwise (· < ·) ∧ (∀ x ∈ a, ∀ y ∈ b, y < x) ∧ (∀ x ∈ a, o ≤ x) ∧ (∀ y ∈ b, y ≤ w)) := by
  obtain ⟨_, a, b, rfl, ha, hb, hab⟩ := h
  by_cases hae : a = []
  · subst hae
    left
    simp only [List.nil_append] at *
    exact ⟨le_of_head_mem hb (List.mem_of_getLast? hw) ho, hb⟩
  · by_cases hbe : b = []
    · subst hbe
      left
      simp only [List.append_nil] at *
      exact ⟨le_of_head_mem ha (List.mem_of_getLast? hw) ho, ha⟩
    · right
      have ho' := head_append ho hae
      have hw' := last_append hw hbe
      exact ⟨hab o (List.mem_of_head? ho') w (List.mem_of_getLast? hw'), a, b, rfl, hae, hbe, ha, hb, hab,
        fun x hx => le_of_head_mem ha hx ho', fun y hy => le_of_mem_last hb hy hw'⟩

theorem cyclic_sublist {max : Nat} {ns ms : List Nat} (h : Cyclic max ns) (hs : ms.Sublist ns) : Cyclic max ms := by
  obtain ⟨hr, a, b, rfl, ha, hb, hab⟩ := h
  refine ⟨fun n hn => hr n (hs.subset hn), ?_⟩
  obtain ⟨a', b', rfl, ha', hb'⟩ := List.sublist_append_iff.mp hs
  exact ⟨a', b', rfl, ha.sublist ha', hb.sublist hb', fun x hx y hy => hab x (ha'.subset hx) y (hb'.subset hy)⟩

theorem cyclic_nodup {max : Nat} {ns : List Nat} (h : Cyclic max ns) : ns.Nodup := by
  obtain ⟨_, a, b, rfl, ha, hb, hab⟩ := h
  rw [List.nodup_append]
  refine ⟨ha.imp (fun h => Nat.ne_of_lt h), hb.imp (fun h => Nat.ne_of_lt h), ?_⟩
  intro x hx y hy
  exact Nat.ne_of_gt (hab x hx y hy)

/-- When one more number may follow. -/
theorem cyclic_snoc {max : Nat} {ns : List Nat} (h : Cyclic max ns) {o w n : Nat} (ho : ns.head? = some o) (hw : ns.getLast? = some w) (h1 : 1 ≤ n) (h2 : n ≤ max) :
    Cyclic max (ns ++ [n]) ↔ if o ≤ w then ¬ (o ≤ n ∧ n ≤ w) else ¬ (o ≤ n ∨ n ≤ w) := by
  have hne : ns ≠ [] := by rintro rfl; simp at ho
  constructor
  · rintro ⟨_, a, b, hab, ha, hb, hlt⟩
    by_cases hbe : b = []
    · subst hbe
      rw [List.append_nil] at hab
      subst hab
      rw [List.pairwise_append] at ha
      have := ha.2.2 w (List.mem_of_getLast? hw) n (by simp)
      have := le_of_head_mem ha.1 (List.mem_of_getLast? hw) ho
      split <;> omega
    · obtain ⟨b', x, rfl⟩ : ∃ b' x, b = b' ++ [x] := ⟨b.dropLast, b.getLast hbe, (List.dropLast_concat_getLast hbe).symm⟩
      rw [← List.append_assoc] at hab
      obtain ⟨rfl, hx⟩ := List.append_inj' hab rfl
      simp only [List.cons.injEq, and_true] at hx
      subst hx
      rw [List.pairwise_append] at hb
      by_cases hb'e : b' = []
      · subst hb'e
        rw [List.append_nil] at *
        have := hlt o (List.mem_of_head? ho) n (by simp)
        have := le_of_head_mem ha (List.mem_of_getLast? hw) ho
        split <;> omega
      · have hw' := last_append hw hb'e
        have := hb.2.2 w (List.mem_of_getLast? hw') n (by simp)
        by_cases hae : a = []
        · subst hae
          rw [List.nil_append] at *
          have := le_of_head_mem hb.1 (List.mem_of_getLast? hw') ho
          split <;> omega
        · have ho' := head_append ho hae
          have := hlt o (List.mem_of_head? ho') n (by simp)
          have := hlt o (List.mem_of_head? ho') w (by simp [List.mem_of_getLast? hw'])
          split <;> omega
  · intro hc
    refine ⟨?_, ?_⟩
    · intro m hm
      rcases List.mem_append.mp hm with hm | hm
      · exact h.1 m hm
      · simp at hm; omega
    · rcases cyclic_cases h ho hw with ⟨how, hp⟩ | ⟨how, a, b, rfl, _, _, ha, hb, hab, hao, hbw⟩
      · rw [if_pos how] at hc
        by_cases hwn : w < n
        · refine ⟨ns ++ [n], [], by simp, ?_, List.Pairwise.nil, by simp⟩
          rw [List.pairwise_append]
          refine ⟨hp, List.pairwise_singleton _ _, ?_⟩
          intro x hx y hy
          simp at hy
          have := le_of_mem_last hp hx hw
          omega
        · refine ⟨ns, [n], rfl, hp, List.pairwise_singleton _ _, ?_⟩
          intro x hx y hy
          simp at hy
          have := le_of_head_mem hp hx ho
          omega
      · rw [if_neg (by omega)] at hc
        refine ⟨a, b ++ [n], by simp, ha, ?_, ?_⟩
        · rw [List.pairwise_append]
          refine ⟨hb, List.pairwise_singleton _ _, ?_⟩
          intro x hx y hy
          simp at hy
          have := hbw x hx
          omega
        · intro x hx y hy
          rcases List.mem_append.mp hy with hy | hy
          · exact hab x hx y hy
          · simp at hy
            have := hao x hx
            omega

/-! ## Histories -/

theorem good_sublist {P : Params} {l l' : List Entry} (h : Good P l) (hs : l'.Sublist l) : Good P l' :=
  ⟨Nat.le_trans hs.length_le h.1, cyclic_sublist h.2 (hs.map _)⟩

theorem good_nil (P : Params) : Good P [] := ⟨Nat.zero_le _, by simp, [], [], rfl, List.Pairwise.nil, List.Pairwise.nil, by simp⟩

theorem good_singleton {P : Params} (hP : 0 < P.size) (e : Entry) (h1 : 1 ≤ e.number) (h2 : e.number ≤ P.max) : Good P [e] :=
  ⟨hP, by simp; exact ⟨h1, h2⟩, [e.number], [], rfl, List.pairwise_singleton _ _, List.Pairwise.nil, by simp⟩

theorem needRemove_iff {P : Params} {l : List Entry} (hne : l ≠ []) (h : Good P l) (e : Entry) (h1 : 1 ≤ e.number) (h2 : e.number ≤ P.max) :
    needRemove P e.number l = true ↔ ¬ Good P (l ++ [e]) := by
  obtain ⟨o, ho⟩ : ∃ o, l.head? = some o := by cases l with | nil => exact absurd rfl hne | cons x l => exact ⟨x, rfl⟩
  obtain ⟨w, hw⟩ : ∃ w, l.getLast? = some w := ⟨l.getLast hne, List.getLast?_eq_some_getLast hne⟩
  have ho' : (l.map (·.number)).head? = some o.number := by simp [ho]
  have hw' : (l.map (·.number)).getLast? = some w.number := by simp [hw]
  have hs := cyclic_snoc h.2 ho' hw' h1 h2
  have hl : Good P (l ++ [e]) ↔ l.length < P.size ∧ Cyclic P.max (l.map (·.number) ++ [e.number]) := by
    simp [Good, Nat.lt_iff_add_one_le]
  rw [hl, hs]
  simp only [needRemove, ho, hw]
  by_cases hfull : l.length ≥ P.size
  · simp [hfull]; omega
  · have : l.length < P.size := by omega
    simp only [hfull, if_false, this, true_and]
    split
    · simp
    · simp [Nat.not_le]; omega

theorem makeRoom_spec {P : Params} (hP : 0 < P.size) (e : Entry) (h1 : 1 ≤ e.number) (h2 : e.number ≤ P.max) (l : List Entry) (h : Good P l) :
    Good P (makeRoom P e.number l ++ [e]) ∧ ∃ k, makeRoom P e.number l = l.drop k ∧ ∀ j, j < k → ¬ Good P (l.drop j ++ [e]) := by
  induction l with
  | nil => exact ⟨good_singleton hP e h1 h2, 0, rfl, by simp⟩
  | cons x l ih =>
    have hi := needRemove_iff (by simp) h e h1 h2
    rw [makeRoom]
    by_cases hn : needRemove P e.number (x :: l) = true
    · rw [if_pos hn]
      obtain ⟨hg, k, hk, hj⟩ := ih (good_sublist h (List.sublist_cons_self _ _))
      refine ⟨hg, k + 1, by simpa using hk, ?_⟩
      intro j hjk
      cases j with
      | zero => exact hi.mp hn
      | succ j => simpa using hj j (by omega)
    · rw [if_neg hn]
      exact ⟨Classical.not_not.mp (fun hc => hn (hi.mpr hc)), 0, rfl, by simp⟩

/-- A new entry is appended as it should be. -/
theorem newEntry_appended {P : Params} (hP : 0 < P.size) {n : Nat} (time : Option Nat) (line : Str) {l : List Entry} (h : Good P l) (h1 : 1 ≤ n) (h2 : n ≤ P.max) :
    ∃ l', newEntry P n time line l = some l' ∧ Appended P ⟨n, time, line⟩ l l' := by
  obtain ⟨hg, k, hk, hj⟩ := makeRoom_spec hP ⟨n, time, line⟩ h1 h2 l h
  refine ⟨makeRoom P n l ++ [⟨n, time, line⟩], ?_, hg, k, by rw [← hk], hj⟩
  rw [newEntry, if_pos (by simp; omega)]
  simp only
  rw [if_pos hg.1]

theorem appended_unique {P : Params} {e : Entry} {l l1 l2 : List Entry} (h1 : Appended P e l l1) (h2 : Appended P e l l2) : l1 = l2 := by
  obtain ⟨g1, k1, rfl, j1⟩ := h1
  obtain ⟨g2, k2, rfl, j2⟩ := h2
  rcases Nat.lt_trichotomy k1 k2 with h | h | h
  · exact absurd g1 (j2 k1 h)
  · rw [h]
  · exact absurd g2 (j1 k2 h)

theorem nextNumber_successor {P : Params} {l : List Entry} (h : Good P l) : successor P.max l (nextNumber P l) := by
  cases hl : l.getLast? with
  | none =>
    left
    refine ⟨by simpa using hl, by simp [nextNumber, hl]⟩
  | some e =>
    right
    refine ⟨e, hl, ?_⟩
    have := h.2.1 e.number (List.mem_map_of_mem (List.mem_of_getLast? hl))
    simp only [nextNumber, hl]
    split <;> omega

theorem successor_unique {max : Nat} {l : List Entry} {n m : Nat} (h1 : successor max l n) (h2 : successor max l m) : n = m := by
  rcases h1 with ⟨rfl, rfl⟩ | ⟨e, he, h1⟩
  · rcases h2 with ⟨_, rfl⟩ | ⟨e, he, _⟩
    · rfl
    · simp at he
  · rcases h2 with ⟨rfl, rfl⟩ | ⟨e', he', h2⟩
    · simp at he
    · rw [he] at he'
      cases he'
      omega

theorem nextNumber_range {P : Params} (hP : 1 ≤ P.max) (l : List Entry) : 1 ≤ nextNumber P l ∧ nextNumber P l ≤ P.max := by
  simp only [nextNumber]
  split
  · omega
  · split <;> omega

theorem removeDuplicates_spec (P : Params) (line : Str) (l : List Entry) : Deduplicated P.rmdup line l (removeDuplicates P line l).1 := by
  refine ⟨l.take (l.length - P.rmdup), l.drop (l.length - P.rmdup), _, (List.take_append_drop _ _).symm, rfl, ?_, rfl⟩
  simp only [List.length_drop]
  by_cases h : P.rmdup ≤ l.length
  · left; omega
  · right; exact ⟨by omega, by rw [List.take_eq_nil_iff]; left; omega⟩

theorem deduplicated_unique {n : Nat} {line : Str} {l l1 l2 : List Entry} (h1 : Deduplicated n line l l1) (h2 : Deduplicated n line l l2) : l1 = l2 := by
  obtain ⟨o1, w1, k1, rfl, rfl, c1, rfl⟩ := h1
  obtain ⟨o2, w2, k2, he, rfl, c2, rfl⟩ := h2
  have hl := congrArg List.length he
  simp only [List.length_append] at hl
  have : o1.length = o2.length := by
    rcases c1 with c1 | ⟨c1, rfl⟩ <;> rcases c2 with c2 | ⟨c2, rfl⟩ <;> (try simp only [List.length_nil] at *) <;> omega
  obtain ⟨rfl, rfl⟩ := List.append_inj he this
  rfl

theorem removeDuplicates_sublist (P : Params) (line : Str) (l : List Entry) : (removeDuplicates P line l).1.Sublist l := by
  have : (l.take (l.length - P.rmdup) ++ l.drop (l.length - P.rmdup)) = l := List.take_append_drop _ _
  conv => rhs; rw [← this]
  exact List.Sublist.append (List.Sublist.refl _) List.filter_sublist

theorem added_unique {P : Params} {visible : Char → Bool} {now : Nat} {line : Str} {l l1 l2 : List Entry}
    (h1 : Added P visible now line l l1) (h2 : Added P visible now line l l2) : l1 = l2 := by
  rcases h1 with ⟨v1, m1, n1, d1, s1, a1⟩ | ⟨v1, rfl⟩
  · rcases h2 with ⟨v2, m2, n2, d2, s2, a2⟩ | ⟨v2, rfl⟩
    · cases deduplicated_unique d1 d2
      cases successor_unique s1 s2
      exact appended_unique a1 a2
    · exact absurd v1 v2
  · rcases h2 with ⟨v2, _⟩ | ⟨v2, rfl⟩
    · exact absurd v2 v1
    · rfl

theorem addedAll_unique {P : Params} {visible : Char → Bool} {now : Nat} {lines : List Str} {l l1 l2 : List Entry}
    (h1 : AddedAll P visible now lines l l1) (h2 : AddedAll P visible now lines l l2) : l1 = l2 := by
  induction h1 with
  | nil l => cases h2; rfl
  | cons a _ ih =>
    cases h2 with
    | cons a' r' =>
      cases added_unique a a'
      exact ih r'

theorem splitText_ne_nil (text : Str) : splitText text ≠ [] := by
  cases text with
  | nil => simp [splitText]
  | cons c cs =>
    rw [splitText]
    split
    · simp
    · split <;> simp

theorem splitText_linesOf (text : Str) : LinesOf text (splitText text) := by
  refine ⟨splitText_ne_nil text, ?_⟩
  induction text with
  | nil => simp [splitText, List.intercalate]
  | cons c cs ih =>
    rw [splitText]
    by_cases hc : c = '\n'
    · rw [if_pos hc]
      refine ⟨by simpa using ih.1, ?_⟩
      obtain ⟨x, xs, hx⟩ := List.exists_cons_of_ne_nil (splitText_ne_nil cs)
      rw [hx] at ih ⊢
      rw [hc, ← ih.2]
      simp [List.intercalate]
    · rw [if_neg hc]
      obtain ⟨x, xs, hx⟩ := List.exists_cons_of_ne_nil (splitText_ne_nil cs)
      rw [hx] at ih ⊢
      simp only
      refine ⟨?_, ?_⟩
      · intro line hl
        rcases List.mem_cons.mp hl with rfl | hl
        · have := ih.1 x (by simp)
          simp only [List.mem_cons, not_or]
          exact ⟨fun h => hc h.symm, this⟩
        · exact ih.1 line (by simp [hl])
      · rw [← ih.2]
        cases xs <;> simp [List.intercalate]

end Yash.History
