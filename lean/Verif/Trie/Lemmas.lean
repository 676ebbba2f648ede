import Verif.Trie.Spec
/-! # Invariants of the trie -/
set_option autoImplicit false
set_option linter.unusedSimpArgs false
set_option linter.unusedSectionVars false

namespace Yash.Trie

variable {K V : Type} [DecidableEq K] {lt : K → K → Bool}

@[simp] theorem entries_mk (v : Option V) (c : Nat) (es : List (K × Node K V)) :
    (Node.mk v c es).entries = es := rfl
@[simp] theorem value_mk (v : Option V) (c : Nat) (es : List (K × Node K V)) :
    (Node.mk v c es).value = v := rfl
@[simp] theorem cap_mk (v : Option V) (c : Nat) (es : List (K × Node K V)) :
    (Node.mk v c es).cap = c := rfl

/-- The keys of the entries are strictly ascending. -/
def Sorted (lt : K → K → Bool) (es : List (K × Node K V)) : Prop :=
  es.Pairwise (fun a b => lt a.1 b.1 = true)

/-- Reachable tries: sorted, allocated as `RAISE_COUNT` says, and without empty nodes below the
root. -/
inductive Good (lt : K → K → Bool) : Node K V → Prop
  | mk (v : Option V) (cap : Nat) (es : List (K × Node K V)) (hs : Sorted lt es)
      (hc : cap = raiseCount es.length) (hg : ∀ en ∈ es, Good lt en.2)
      (hn : ∀ en ∈ es, isEmpty en.2 = false) : Good lt (.mk v cap es)

theorem good_create : Good lt (create : Node K V) :=
  .mk _ _ _ List.Pairwise.nil rfl (by simp) (by simp)

/-- The value bound to a key. -/
def val : Node K V → List K → Option V
  | t, [] => t.value
  | t, k :: ks =>
    match t.entries.find? (fun en => decide (en.1 = k)) with
    | some en => val en.2 ks
    | none => none

theorem le_raiseCount (n : Nat) : n ≤ raiseCount n := Nat.left_le_or

theorem binarySearch_spec (hlt : LtOk lt) (e : List (K × Node K V)) (key : K)
    (hs : Sorted lt e) : ∀ (count offset : Nat), offset + count ≤ e.length →
    (∀ a ∈ e.take offset, lt a.1 key = true) → (∀ a ∈ e.drop (offset + count), lt key a.1 = true) →
    (∃ pre c post, e = pre ++ (key, c) :: post ∧
      binarySearch lt e key offset count = some (pre.length : Int)) ∨
    (∃ pre post, e = pre ++ post ∧ (∀ a ∈ pre, lt a.1 key = true) ∧
      (∀ a ∈ post, lt key a.1 = true) ∧
      binarySearch lt e key offset count = some (-(pre.length : Int) - 1)) := by
  intro count
  induction count using Nat.strongRecOn with
  | ind count ih =>
    intro offset hle hpre hpost
    rw [binarySearch.eq_def]
    by_cases h0 : count = 0
    · subst h0
      refine Or.inr ⟨e.take offset, e.drop offset, (List.take_append_drop _ _).symm, hpre,
        hpost, ?_⟩
      simp
      omega
    · rw [dif_neg h0]
      have hj : offset + count / 2 < e.length := by omega
      have hget : e[offset + count / 2]? = some e[offset + count / 2] := List.getElem?_eq_getElem hj
      have hsplit : e = e.take (offset + count / 2) ++
          e[offset + count / 2] :: e.drop (offset + count / 2 + 1) := by
        rw [List.getElem_cons_drop, List.take_append_drop]
      simp only [hget]
      by_cases hk : key = e[offset + count / 2].1
      · rw [if_pos hk]
        refine Or.inl ⟨e.take (offset + count / 2), e[offset + count / 2].2,
          e.drop (offset + count / 2 + 1), ?_, ?_⟩
        · rw [hk]
          exact hsplit
        · simp
          omega
      · rw [if_neg hk]
        have hs' := hs
        rw [hsplit] at hs'
        unfold Sorted at hs'
        rw [List.pairwise_append, List.pairwise_cons] at hs'
        obtain ⟨_, ⟨hr, _⟩, hl⟩ := hs'
        cases hlk : lt key e[offset + count / 2].1 with
        | true =>
          rw [if_pos rfl]
          refine ih (count / 2) (by omega) offset (by omega) hpre ?_
          intro a ha
          rw [← List.getElem_cons_drop hj] at ha
          cases ha with
          | head => exact hlk
          | tail _ ha => exact hlt.trans _ _ _ hlk (hr a ha)
        | false =>
          rw [if_neg (by simp)]
          have hlk' : lt e[offset + count / 2].1 key = true := by
            rcases hlt.total _ _ hk with h | h
            · rw [hlk] at h; cases h
            · exact h
          refine ih (count - (count / 2 + 1)) (by omega) (offset + (count / 2 + 1)) (by omega) ?_ ?_
          · intro a ha
            rw [← Nat.add_assoc, List.take_succ_eq_append_getElem hj, List.mem_append,
              List.mem_singleton] at ha
            rcases ha with ha | rfl
            · exact hlt.trans _ _ _ (hl a ha _ (List.mem_cons_self ..)) hlk'
            · exact hlk'
          · intro a ha
            refine hpost a ?_
            have : offset + (count / 2 + 1) + (count - (count / 2 + 1)) = offset + count := by omega
            rw [this] at ha
            exact ha

theorem search_spec (hlt : LtOk lt) (t : Node K V) (key : K) (hs : Sorted lt t.entries) :
    (∃ pre c post, t.entries = pre ++ (key, c) :: post ∧
      search lt t key = some (pre.length : Int)) ∨
    (∃ pre post, t.entries = pre ++ post ∧ (∀ a ∈ pre, lt a.1 key = true) ∧
      (∀ a ∈ post, lt key a.1 = true) ∧ search lt t key = some (-(pre.length : Int) - 1)) :=
  binarySearch_spec hlt t.entries key hs t.entries.length 0 (by omega) (by simp) (by simp)

theorem sorted_mid (hlt : LtOk lt) {pre post : List (K × Node K V)} {k : K} {c : Node K V}
    (h : Sorted lt (pre ++ (k, c) :: post)) :
    (∀ a ∈ pre, a.1 ≠ k) ∧ (∀ a ∈ post, a.1 ≠ k) := by
  unfold Sorted at h
  rw [List.pairwise_append, List.pairwise_cons] at h
  obtain ⟨_, ⟨hr, _⟩, hl⟩ := h
  constructor
  · intro a ha he
    have := hl a ha _ (List.mem_cons_self ..)
    rw [he, hlt.irrefl] at this
    cases this
  · intro a ha he
    have := hr a ha
    rw [he, hlt.irrefl] at this
    cases this

theorem find_mid {pre post : List (K × Node K V)} {k : K} {c : Node K V}
    (h : ∀ a ∈ pre, a.1 ≠ k) :
    (pre ++ (k, c) :: post).find? (fun en => decide (en.1 = k)) = some (k, c) := by
  rw [List.find?_append]
  have : pre.find? (fun en => decide (en.1 = k)) = none := by
    rw [List.find?_eq_none]
    intro a ha
    simpa using h a ha
  simp [this]

theorem find_other {pre post : List (K × Node K V)} {k k' : K} {c : Node K V} (h : k' ≠ k) :
    (pre ++ (k, c) :: post).find? (fun en => decide (en.1 = k')) =
      (pre ++ post).find? (fun en => decide (en.1 = k')) := by
  rw [List.find?_append, List.find?_append, List.find?_cons_of_neg]
  simpa using h.symm

theorem find_none {pre post : List (K × Node K V)} {k : K}
    (h1 : ∀ a ∈ pre, a.1 ≠ k) (h2 : ∀ a ∈ post, a.1 ≠ k) :
    (pre ++ post).find? (fun en => decide (en.1 = k)) = none := by
  rw [List.find?_eq_none]
  intro a ha
  rcases List.mem_append.1 ha with ha | ha
  · simpa using h1 a ha
  · simpa using h2 a ha

theorem sorted_insert {pre post : List (K × Node K V)} {k : K} {c : Node K V}
    (hlt : LtOk lt) (h : Sorted lt (pre ++ post)) (h1 : ∀ a ∈ pre, lt a.1 k = true)
    (h2 : ∀ a ∈ post, lt k a.1 = true) : Sorted lt (pre ++ (k, c) :: post) := by
  unfold Sorted at *
  rw [List.pairwise_append] at h ⊢
  obtain ⟨ha, hb, hc⟩ := h
  refine ⟨ha, List.pairwise_cons.2 ⟨h2, hb⟩, ?_⟩
  intro a hma b hmb
  cases hmb with
  | head => exact h1 a hma
  | tail _ hmb => exact hc a hma b hmb

theorem sorted_replace {pre post : List (K × Node K V)} {k : K} {c c' : Node K V}
    (h : Sorted lt (pre ++ (k, c) :: post)) : Sorted lt (pre ++ (k, c') :: post) := by
  unfold Sorted at *
  rw [List.pairwise_append, List.pairwise_cons] at h ⊢
  obtain ⟨ha, ⟨hb, hb'⟩, hc⟩ := h
  refine ⟨ha, ⟨hb, hb'⟩, ?_⟩
  intro a hma b hmb
  cases hmb with
  | head => exact hc a hma (k, c) (List.mem_cons_self ..)
  | tail _ hmb => exact hc a hma b (List.mem_cons_of_mem _ hmb)

theorem sorted_remove {pre post : List (K × Node K V)} {x : K × Node K V}
    (h : Sorted lt (pre ++ x :: post)) : Sorted lt (pre ++ post) :=
  h.sublist (List.Sublist.append (List.Sublist.refl _) (List.sublist_cons_self _ _))

/-- What `locate` does on a reachable node. -/
theorem locate_spec (hlt : LtOk lt) (t : Node K V) (k : K) (hs : Sorted lt t.entries)
    (hc : t.cap = raiseCount t.entries.length) :
    ∃ pre c post, locate lt t k =
        some (.mk t.value (raiseCount (pre ++ (k, c) :: post).length) (pre ++ (k, c) :: post),
          pre.length) ∧
      Sorted lt (pre ++ (k, c) :: post) ∧
      (t.entries = pre ++ (k, c) :: post ∨ (t.entries = pre ++ post ∧ c = create)) := by
  rcases search_spec hlt t k hs with ⟨pre, c, post, he, hr⟩ | ⟨pre, post, he, h1, h2, hr⟩
  · refine ⟨pre, c, post, ?_, he ▸ hs, Or.inl he⟩
    rw [locate, hr]
    dsimp only
    rw [if_neg (by omega)]
    cases t
    simp only [cap_mk, entries_mk, value_mk] at *
    simp [hc, he]
  · refine ⟨pre, create, post, ?_, sorted_insert hlt (he ▸ hs) h1 h2, Or.inr ⟨he, rfl⟩⟩
    rw [locate, hr]
    dsimp only
    rw [if_pos (by omega)]
    have e1 : (-(-(pre.length : Int) - 1 + 1)).toNat = pre.length := by omega
    rw [e1, insertEntry, if_pos (by rw [he]; simp)]
    have hens : ensureSize t (t.entries.length + 1) =
        .mk t.value (raiseCount (t.entries.length + 1)) t.entries := by
      unfold ensureSize
      dsimp only
      split
      · rename_i h
        have h' : raiseCount t.entries.length = raiseCount (t.entries.length + 1) := by
          refine Nat.le_antisymm ?_ h
          -- `x ||| 3` is monotone from x to x + 1
          unfold raiseCount
          have h3 : ∀ n : Nat, n ||| 3 = 4 * (n / 4) + 3 := by
            intro n
            apply Nat.eq_of_testBit_eq
            intro i
            rw [Nat.testBit_or]
            rcases i with _ | _ | i
            · have : (4 * (n / 4) + 3).testBit 0 = true := by
                rw [Nat.testBit_zero]; simp; omega
              rw [this]
              simp [Nat.testBit_zero]
            · have : (4 * (n / 4) + 3).testBit 1 = true := by
                rw [Nat.testBit_succ, Nat.testBit_zero]; simp; omega
              rw [this]
              have : Nat.testBit 3 1 = true := by decide
              simp [this]
            · rw [show i + 1 + 1 = i + 2 from rfl]
              have e2 : Nat.testBit 3 (i + 2) = false := by
                rw [Nat.testBit_succ, Nat.testBit_succ]; simp
              rw [e2, Bool.or_false, Nat.testBit_succ, Nat.testBit_succ, Nat.testBit_succ,
                Nat.testBit_succ]
              congr 1
              omega
          rw [h3, h3]
          omega
        rw [← h', ← hc]
        cases t; rfl
      · rfl
    dsimp only
    have hle : (Node.mk t.value (raiseCount (t.entries.length + 1)) t.entries).entries.length + 1 ≤
        (Node.mk t.value (raiseCount (t.entries.length + 1)) t.entries).cap := le_raiseCount _
    rw [hens, if_pos hle]
    simp only [cap_mk, entries_mk, value_mk]
    simp only [he, List.take_left', List.drop_left', List.length_append, List.length_cons, Nat.add_assoc]

theorem setChild_mid (v : Option V) (cap : Nat) (pre post : List (K × Node K V)) (k : K)
    (c c' : Node K V) :
    setChild (.mk v cap (pre ++ (k, c) :: post)) pre.length c' =
      some (.mk v cap (pre ++ (k, c') :: post)) := by
  simp [setChild, entries_mk, value_mk, cap_mk]

theorem get_mid (pre post : List (K × Node K V)) (k : K) (c : Node K V) :
    (pre ++ (k, c) :: post)[pre.length]? = some (k, c) := by simp

theorem good_iff (v : Option V) (cap : Nat) (es : List (K × Node K V)) :
    Good lt (.mk v cap es) ↔ Sorted lt es ∧ cap = raiseCount es.length ∧
      (∀ en ∈ es, Good lt en.2) ∧ (∀ en ∈ es, isEmpty en.2 = false) :=
  ⟨fun h => by cases h; exact ⟨‹_›, ‹_›, ‹_›, ‹_›⟩, fun ⟨a, b, c, d⟩ => .mk _ _ _ a b c d⟩

theorem good_parts {t : Node K V} (h : Good lt t) : Sorted lt t.entries ∧
    t.cap = raiseCount t.entries.length ∧ (∀ en ∈ t.entries, Good lt en.2) ∧
    (∀ en ∈ t.entries, isEmpty en.2 = false) := by
  cases t
  exact (good_iff _ _ _).1 h

theorem forall_mid {P : K × Node K V → Prop} {pre post : List (K × Node K V)}
    {x : K × Node K V} :
    (∀ en ∈ pre ++ x :: post, P en) ↔ (∀ en ∈ pre ++ post, P en) ∧ P x := by
  simp only [List.mem_append, List.mem_cons]
  constructor
  · intro h
    exact ⟨fun en hen => h en (hen.elim Or.inl (fun h => Or.inr (Or.inr h))), h x (Or.inr (Or.inl rfl))⟩
  · rintro ⟨h1, h2⟩ en (h | rfl | h)
    · exact h1 en (Or.inl h)
    · exact h2
    · exact h1 en (Or.inr h)

theorem set_not_empty {t t' : Node K V} : ∀ {key : List K} {v : V},
    set lt t key v = some t' → isEmpty t' = false := by
  intro key v h
  cases key with
  | nil => simp only [set, Option.some.injEq] at h; subst h; simp [isEmpty, value_mk]
  | cons k ks =>
    simp only [set] at h
    split at h
    · cases h
    · split at h
      · cases h
      · rename_i t1 i _ _ en hen
        split at h
        · cases h
        · simp only [setChild, hen, Option.some.injEq] at h
          subst h
          have : t1.entries.length ≠ 0 := by
            intro h0
            have := List.eq_nil_of_length_eq_zero h0
            rw [this] at hen
            simp at hen
          simp [isEmpty, entries_mk, value_mk]
          intro h0
          exact absurd (congrArg List.length h0) (by simpa using this)

theorem val_create (k : List K) : val (create : Node K V) k = none := by
  cases k <;> simp [val, create, value_mk, entries_mk]

/-- Insertion. -/
theorem set_spec (hlt : LtOk lt) : ∀ (key : List K) (t : Node K V) (v : V), Good lt t →
    ∃ t', set lt t key v = some t' ∧ Good lt t' ∧
      ∀ k, val t' k = if k = key then some v else val t k
  | [], t, v, h => by
    refine ⟨_, rfl, ?_, ?_⟩
    · cases t
      rw [good_iff] at h ⊢
      exact h
    · intro k
      cases k with
      | nil => simp [val, value_mk]
      | cons k ks => cases t; simp [val, entries_mk]
  | k :: ks, t, v, h => by
    obtain ⟨hs, hc, hg, hn⟩ := good_parts h
    obtain ⟨pre, c, post, hl, hs', hor⟩ := locate_spec hlt t k hs hc
    have hgc : Good lt c ∧ (∀ en ∈ pre ++ post, Good lt en.2) ∧
        (∀ en ∈ pre ++ post, isEmpty en.2 = false) := by
      rcases hor with he | ⟨he, rfl⟩
      · rw [he] at hg hn
        exact ⟨(forall_mid.1 hg).2, (forall_mid.1 hg).1, (forall_mid.1 hn).1⟩
      · rw [he] at hg hn
        exact ⟨good_create, hg, hn⟩
    obtain ⟨c', hset, hgc', hval⟩ := set_spec hlt ks c v hgc.1
    have hpre := (sorted_mid hlt hs').1
    have hpost := (sorted_mid hlt hs').2
    refine ⟨.mk t.value (raiseCount (pre ++ (k, c) :: post).length) (pre ++ (k, c') :: post), ?_, ?_, ?_⟩
    · rw [set, hl]
      simp only [entries_mk, get_mid, hset, setChild_mid]
    · rw [good_iff]
      refine ⟨sorted_replace hs', by simp, forall_mid.2 ⟨hgc.2.1, hgc'⟩,
        forall_mid.2 ⟨hgc.2.2, set_not_empty hset⟩⟩
    · intro k'
      cases k' with
      | nil => cases t; simp [val, value_mk]
      | cons x xs =>
        simp only [val, entries_mk, List.cons.injEq]
        by_cases hx : x = k
        · subst hx
          rw [find_mid hpre]
          simp only [hval, true_and]
          rcases hor with he | ⟨he, rfl⟩
          · simp only [he, find_mid hpre]
          · simp only [he, find_none hpre hpost, val_create]
        · rw [find_other hx, if_neg (by simp [hx])]
          rcases hor with he | ⟨he, rfl⟩
          · simp only [he, find_other hx]
          · simp only [he]

theorem setNull_eq (nul : K) (t : Node K V) (v : V) :
    setNull lt nul t v = set lt t [nul] v := rfl

theorem removeEntry_mid (v : Option V) (cap : Nat) (pre post : List (K × Node K V))
    (x : K × Node K V) (hc : cap = raiseCount (pre ++ x :: post).length) :
    removeEntry (.mk v cap (pre ++ x :: post)) pre.length =
      .mk v (raiseCount (pre ++ post).length) (pre ++ post) := by
  have e1 : (pre ++ x :: post).drop (pre.length + 1) = post := by
    rw [List.drop_append, List.drop_eq_nil_of_le (by omega)]
    simp
  have e2 : (pre ++ x :: post).length - 1 = (pre ++ post).length := by simp
  simp only [removeEntry, entries_mk, value_mk, cap_mk, e1, List.take_left', e2]
  congr 1
  split
  · rfl
  · rename_i h
    simp only [ne_eq, Decidable.not_not] at h
    rw [hc, h]

theorem val_of_isEmpty {t : Node K V} (h : isEmpty t = true) (k : List K) : val t k = none := by
  cases t with
  | mk v cap es =>
    simp [isEmpty, entries_mk, value_mk] at h
    obtain ⟨rfl, rfl⟩ := h
    cases k <;> simp [val, value_mk, entries_mk]

/-- Removal. -/
theorem remove_spec (hlt : LtOk lt) : ∀ (key : List K) (t : Node K V), Good lt t →
    ∃ t', remove lt t key = some t' ∧ Good lt t' ∧
      ∀ k, val t' k = if k = key then none else val t k
  | [], t, h => by
    refine ⟨_, rfl, ?_, ?_⟩
    · cases t
      rw [good_iff] at h ⊢
      exact h
    · intro k
      cases k with
      | nil => simp [val, value_mk]
      | cons k ks => cases t; simp [val, entries_mk]
  | k :: ks, t, h => by
    obtain ⟨hs, hc, hg, hn⟩ := good_parts h
    rcases search_spec hlt t k hs with ⟨pre, c, post, he, hr⟩ | ⟨pre, post, he, h1, h2, hr⟩
    · cases t with
      | mk v cap es =>
      simp only [entries_mk, cap_mk] at he hs hc hg hn
      subst he
      obtain ⟨c', hrem, hgc', hval⟩ := remove_spec hlt ks c (forall_mid.1 hg).2
      have hpre := (sorted_mid hlt hs).1
      have hpost := (sorted_mid hlt hs).2
      rw [remove, hr]
      simp only [entries_mk, Int.toNat_natCast, get_mid, hrem, setChild_mid]
      rw [if_pos (by omega)]
      cases hemp : isEmpty c' with
      | true =>
        refine ⟨_, rfl, ?_, ?_⟩
        · rw [removeEntry_mid v cap pre post (k, c') (by rw [hc]; simp), good_iff]
          exact ⟨sorted_remove hs, rfl, (forall_mid.1 hg).1, (forall_mid.1 hn).1⟩
        · intro k'
          rw [removeEntry_mid v cap pre post (k, c') (by rw [hc]; simp)]
          cases k' with
          | nil => simp [val, value_mk]
          | cons x xs =>
            simp only [val, entries_mk, List.cons.injEq]
            by_cases hx : x = k
            · subst hx
              rw [find_none hpre hpost, find_mid hpre]
              have := hval xs
              rw [val_of_isEmpty hemp] at this
              simp only [true_and]
              exact this
            · rw [find_other hx, if_neg (by simp [hx])]
      | false =>
        refine ⟨_, rfl, ?_, ?_⟩
        · rw [good_iff]
          exact ⟨sorted_replace hs, by rw [hc]; simp, forall_mid.2 ⟨(forall_mid.1 hg).1, hgc'⟩,
            forall_mid.2 ⟨(forall_mid.1 hn).1, hemp⟩⟩
        · intro k'
          cases k' with
          | nil => simp [val, value_mk]
          | cons x xs =>
            simp only [val, entries_mk, List.cons.injEq]
            by_cases hx : x = k
            · subst hx
              rw [find_mid hpre, find_mid hpre]
              simp only [true_and]
              exact hval xs
            · rw [find_other hx, find_other hx, if_neg (by simp [hx])]
    · refine ⟨t, ?_, h, ?_⟩
      · rw [remove, hr]
        dsimp only
        rw [if_neg (by omega)]
      · intro k'
        split
        · rename_i hk
          subst hk
          cases t
          simp only [entries_mk] at he
          simp only [val, entries_mk, he]
          rw [find_none]
          · intro a ha hak
            have := h1 a ha
            rw [hak, hlt.irrefl] at this
            cases this
          · intro a ha hak
            have := h2 a ha
            rw [hak, hlt.irrefl] at this
            cases this
        · rfl

/-- Every node other than an empty root leads to a bound key. -/
theorem exists_val (hlt : LtOk lt) {t : Node K V} (h : Good lt t) (hn : isEmpty t = false) :
    ∃ k, (val t k).isSome := by
  induction h with
  | mk v cap es hs hc hg hne ih =>
    cases v with
    | some v => exact ⟨[], rfl⟩
    | none =>
      cases es with
      | nil => simp [isEmpty, entries_mk, value_mk] at hn
      | cons en es =>
        obtain ⟨k, hk⟩ := ih en (List.mem_cons_self ..) (hne en (List.mem_cons_self ..))
        refine ⟨en.1 :: k, ?_⟩
        simpa [val, entries_mk] using hk

/-- Lookup. -/
theorem get_spec (hlt : LtOk lt) : ∀ (s : List K) (t : Node K V), Good lt t →
    ∃ r, get lt t s = some r ∧
      (r.exact = none → ∀ n, n ≤ s.length → val t (s.take n) = none) ∧
      (∀ v, r.exact = some v → r.matchlength ≤ s.length ∧ val t (s.take r.matchlength) = some v ∧
        ∀ n, r.matchlength < n → n ≤ s.length → val t (s.take n) = none) ∧
      (r.prefixMatch = true ↔ ∃ k, k ≠ [] ∧ (val t (s ++ k)).isSome)
  | [], t, h => by
    refine ⟨_, rfl, ?_, ?_, ?_⟩
    · intro he n hn
      simpa [val] using he
    · intro v hv
      refine ⟨Nat.le_refl _, by simpa [val] using hv, ?_⟩
      intro n h1 h2
      simp at h1 h2
      omega
    · obtain ⟨hs, hc, hg, hn⟩ := good_parts h
      simp only [gt_iff_lt, decide_eq_true_eq, List.nil_append]
      constructor
      · intro hl
        cases he : t.entries with
        | nil => rw [he] at hl; simp at hl
        | cons en es =>
          rw [he] at hg hn
          obtain ⟨k, hk⟩ := exists_val hlt (hg en (List.mem_cons_self ..)) (hn en (List.mem_cons_self ..))
          refine ⟨en.1 :: k, by simp, ?_⟩
          simpa [val, he] using hk
      · rintro ⟨k, hk, hv⟩
        cases k with
        | nil => exact absurd rfl hk
        | cons x xs =>
          simp only [val] at hv
          cases he : t.entries with
          | nil => simp [he] at hv
          | cons en es => simp
  | k :: ks, t, h => by
    obtain ⟨hs, hc, hg, hn⟩ := good_parts h
    rcases search_spec hlt t k hs with ⟨pre, c, post, he, hr⟩ | ⟨pre, post, he, h1, h2, hr⟩
    · have hgc : Good lt c := by rw [he] at hg; exact (forall_mid.1 hg).2
      have hpre := (sorted_mid hlt (he ▸ hs)).1
      have hv : ∀ xs, val t (k :: xs) = val c xs := by
        intro xs
        simp only [val, he, find_mid hpre]
      obtain ⟨r, hget, hnone, hsome, hpm⟩ := get_spec hlt ks c hgc
      rw [get, hr]
      simp only [Int.toNat_natCast, he, get_mid, hget]
      rw [if_neg (by omega)]
      have hpm' : ∀ k', val t (k :: ks ++ k') = val c (ks ++ k') := fun k' => hv _
      cases hex : r.exact with
      | some v =>
        refine ⟨_, rfl, ?_, ?_, ?_⟩
        · intro h0; simp [hex] at h0
        · intro v' hv'
          obtain ⟨a1, a2, a3⟩ := hsome v' (hex.trans hv')
          refine ⟨by simpa using a1, ?_, ?_⟩
          · simp only [List.take_succ_cons, hv]; exact a2
          · intro n hn1 hn2
            cases n with
            | zero => omega
            | succ n =>
              simp only [List.take_succ_cons, hv]
              exact a3 n (by simpa using hn1) (by simpa using hn2)
        · simp only [hpm']; exact hpm
      | none =>
        have hz := hnone hex
        cases htv : t.value with
        | some v =>
          refine ⟨_, rfl, ?_, ?_, ?_⟩
          · intro h0; simp at h0
          · intro v' hv'
            refine ⟨Nat.zero_le _, ?_, ?_⟩
            · simp only [List.take_zero, val, htv]
              exact hv'
            · intro n hn1 hn2
              cases n with
              | zero => omega
              | succ n =>
                simp only [List.take_succ_cons, hv]
                exact hz n (by simpa using hn2)
          · simp only [hpm']; exact hpm
        | none =>
          refine ⟨_, rfl, ?_, ?_, ?_⟩
          · intro _ n hn2
            cases n with
            | zero => simpa [val] using htv
            | succ n =>
              simp only [List.take_succ_cons, hv]
              exact hz n (by simpa using hn2)
          · intro v' hv'; rw [hex] at hv'; cases hv'
          · simp only [hpm']; exact hpm
    · have hv : ∀ xs, val t (k :: xs) = none := by
        intro xs
        simp only [val, he]
        rw [find_none]
        · intro a ha hak
          have := h1 a ha
          rw [hak, hlt.irrefl] at this
          cases this
        · intro a ha hak
          have := h2 a ha
          rw [hak, hlt.irrefl] at this
          cases this
      rw [get, hr]
      dsimp only
      rw [if_pos (by omega)]
      refine ⟨_, rfl, ?_, ?_, ?_⟩
      · intro h0 n hn2
        cases n with
        | zero => simpa [val] using h0
        | succ n => simp only [List.take_succ_cons, hv]
      · intro v hv'
        refine ⟨Nat.zero_le _, by simpa [val] using hv', ?_⟩
        intro n hn1 hn2
        cases n with
        | zero => omega
        | succ n => simp only [List.take_succ_cons, hv]
      · constructor
        · intro h0; cases h0
        · rintro ⟨k', _, hk'⟩
          rw [List.cons_append, hv] at hk'
          cases hk'

end Yash.Trie
