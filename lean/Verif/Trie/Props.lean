import Verif.Trie.Lemmas
/-! # Properties C06, C07 and C35: the trie of key bindings and predictions -/
set_option autoImplicit false
set_option linter.unusedSimpArgs false
set_option linter.unusedSectionVars false

namespace Yash.Trie

variable {K V : Type} [DecidableEq K] {lt : K → K → Bool}

theorem run_spec (hlt : LtOk lt) (nul : K) (ops : List (Op K V)) :
    ∃ t, run lt nul ops = some t ∧ Good lt t ∧ ∀ k, val t k = specMap nul ops k := by
  have key : ∀ (ops : List (Op K V)) (t : Node K V) (m : List K → Option V), Good lt t →
      (∀ k, val t k = m k) → ∃ t', ops.foldlM (step lt nul) t = some t' ∧ Good lt t' ∧
        ∀ k, val t' k = (ops.foldl (fun m op => match op with
          | .set key v => fun k => if k = key then some v else m k
          | .setNull v => fun k => if k = [nul] then some v else m k
          | .remove key => fun k => if k = key then none else m k) m) k := by
    intro ops
    induction ops with
    | nil => intro t m hg hm; exact ⟨t, rfl, hg, hm⟩
    | cons op ops ih =>
      intro t m hg hm
      rw [List.foldlM_cons, List.foldl_cons]
      cases op with
      | set key v =>
        obtain ⟨t1, h1, h2, h3⟩ := set_spec hlt key t v hg
        simp only [step, h1]
        exact ih t1 _ h2 (fun k => by rw [h3, hm])
      | setNull v =>
        obtain ⟨t1, h1, h2, h3⟩ := set_spec hlt [nul] t v hg
        simp only [step, setNull_eq, h1]
        exact ih t1 _ h2 (fun k => by rw [h3, hm])
      | remove key =>
        obtain ⟨t1, h1, h2, h3⟩ := remove_spec hlt key t hg
        simp only [step, h1]
        exact ih t1 _ h2 (fun k => by rw [h3, hm])
  exact key ops create _ good_create (fun k => val_create k)

/-- C06: after any history of insertions and removals, a lookup succeeds without accessing anything
outside the arrays; it reports the longest bound prefix of the input with its latest value, or
none if no prefix is bound; and it reports that the input is a prefix of a longer key exactly if a
key that properly extends the input is bound. -/
theorem C06_lookup (hlt : LtOk lt) (nul : K) (ops : List (Op K V)) (input : List K) :
    ∃ t r, run lt nul ops = some t ∧ get lt t input = some r ∧
      (match r.exact with
        | none => ∀ n, n ≤ input.length → specMap nul ops (input.take n) = none
        | some v => r.matchlength ≤ input.length ∧
            specMap nul ops (input.take r.matchlength) = some v ∧
            ∀ n, r.matchlength < n → n ≤ input.length → specMap nul ops (input.take n) = none) ∧
      (r.prefixMatch = true ↔ ∃ k, k ≠ [] ∧ (specMap nul ops (input ++ k)).isSome) := by
  obtain ⟨t, h1, h2, h3⟩ := run_spec hlt nul ops
  obtain ⟨r, h4, h5, h6, h7⟩ := get_spec hlt input t h2
  refine ⟨t, r, h1, h4, ?_, ?_⟩
  · cases hr : r.exact with
    | none => simpa [h3] using h5 hr
    | some v => simpa [h3] using h6 v hr
  · simpa [h3] using h7

/-- Bytes (or code points) in their usual order satisfy the hypothesis. -/
theorem ltOk_nat : LtOk (fun a b : Nat => decide (a < b)) where
  irrefl a := by simp
  trans a b c h1 h2 := by simp at *; omega
  total a b h := by simp; omega

/-- Bind `1 2`, `1 2 3` and `1 4`, then remove `1 2`: the input `1 2 3 5` matches `1 2 3`, and the
input `1 2` matches nothing but is a prefix of a key. -/
example : specMap 0 [.set [1, 2] 'a', .set [1, 2, 3] 'b', .set [1, 4] 'c', .remove [1, 2]]
      ([1, 2, 3, 5].take 3) = some 'b' ∧
    specMap 0 [.set [1, 2] 'a', .set [1, 2, 3] 'b', .set [1, 4] 'c', .remove [1, 2]] [1, 2] = none ∧
    (specMap 0 [.set [1, 2] 'a', .set [1, 2, 3] 'b', .set [1, 4] 'c', .remove [1, 2]]
      ([1, 2] ++ [3])).isSome = true := by decide

/-! ## Enumeration -/

mutual
/-- The bound keys with their values, in the order of the tree. -/
def flat : Node K V → List (List K × V)
  | .mk v _ es =>
    (match v with
      | some v => [([], v)]
      | none => []) ++ flatEntries es
/-- The same for the children. -/
def flatEntries : List (K × Node K V) → List (List K × V)
  | [] => []
  | en :: es => flatEntry en ++ flatEntries es
/-- The same for one child. -/
def flatEntry : K × Node K V → List (List K × V)
  | (k, c) => (flat c).map (fun p => (k :: p.1, p.2))
end

theorem visit_append {σ : Type} (f : Callback K V σ) (l1 l2 : List (List K × V)) : ∀ (s : σ),
    visit f s (l1 ++ l2) =
      if (visit f s l1).2 ≠ 0 then visit f s l1 else visit f (visit f s l1).1 l2 := by
  induction l1 with
  | nil => intro s; simp [visit]
  | cons p l1 ih =>
    intro s
    simp only [List.cons_append, visit]
    by_cases h : (f s p.1 p.2).2 ≠ 0
    · simp only [h, if_true, not_false_eq_true, ne_eq]
    · simp only [h, if_false]
      exact ih _

mutual
theorem foreach_flat {σ : Type} (f : Callback K V σ) : ∀ (t : Node K V) (s : σ) (buf : List K),
    foreach f s buf t = visit f s ((flat t).map (fun p => (buf ++ p.1, p.2)))
  | .mk v cap es, s, buf => by
    rw [foreach.eq_def, flat.eq_def]
    cases v with
    | none => simpa using foreachEntries_flat f es s buf
    | some v =>
      simp only [List.cons_append, List.nil_append, List.map_cons, List.append_nil, visit]
      rw [foreachEntries_flat f es]
theorem foreachEntries_flat {σ : Type} (f : Callback K V σ) :
    ∀ (es : List (K × Node K V)) (s : σ) (buf : List K),
    foreachEntries f s buf es = visit f s ((flatEntries es).map (fun p => (buf ++ p.1, p.2)))
  | [], s, buf => by simp [foreachEntries, flatEntries, visit]
  | en :: es, s, buf => by
    rw [foreachEntries.eq_def, flatEntries]
    simp only [List.map_append, visit_append]
    rw [foreachEntry_flat f en]
    rw [foreachEntries_flat f es]
theorem foreachEntry_flat {σ : Type} (f : Callback K V σ) :
    ∀ (en : K × Node K V) (s : σ) (buf : List K),
    foreachEntry f s buf en = visit f s ((flatEntry en).map (fun p => (buf ++ p.1, p.2)))
  | (k, c), s, buf => by
    rw [foreachEntry, flatEntry, foreach_flat f c, List.map_map]
    simp [Function.comp_def]
end

theorem mem_flatEntries (es : List (K × Node K V)) (k : List K) (v : V) :
    (k, v) ∈ flatEntries es ↔ ∃ en ∈ es, ∃ k', k = en.1 :: k' ∧ (k', v) ∈ flat en.2 := by
  induction es with
  | nil => simp [flatEntries]
  | cons en es ih =>
    obtain ⟨x, c⟩ := en
    simp only [flatEntries, flatEntry, List.mem_append, ih, List.mem_map, List.mem_cons]
    constructor
    · rintro (⟨p, h1, h2⟩ | ⟨en, h1, h2⟩)
      · cases h2
        exact ⟨_, Or.inl rfl, _, rfl, h1⟩
      · exact ⟨en, Or.inr h1, h2⟩
    · rintro ⟨en, rfl | h1, k', rfl, h2⟩
      · exact Or.inl ⟨_, h2, rfl⟩
      · exact Or.inr ⟨en, h1, k', rfl, h2⟩

theorem find_unique (hlt : LtOk lt) {es : List (K × Node K V)} (hs : Sorted lt es)
    {en : K × Node K V} (h : en ∈ es) :
    es.find? (fun e => decide (e.1 = en.1)) = some en := by
  obtain ⟨pre, post, rfl⟩ := List.append_of_mem h
  exact find_mid (sorted_mid hlt hs).1

theorem mem_flat (hlt : LtOk lt) {t : Node K V} (h : Good lt t) :
    ∀ (k : List K) (v : V), (k, v) ∈ flat t ↔ val t k = some v := by
  induction h with
  | mk v0 cap es hs hc hg hn ih =>
    intro k v
    rw [flat.eq_def, List.mem_append, mem_flatEntries]
    cases k with
    | nil =>
      constructor
      · rintro (h | ⟨en, _, k', hk, _⟩)
        · cases v0 with
          | none => simp at h
          | some v0 =>
            simp only [List.mem_singleton, Prod.mk.injEq, true_and] at h
            subst h
            rfl
        · cases hk
      · intro h
        refine Or.inl ?_
        simp only [val, value_mk] at h
        subst h
        simp
    | cons x xs =>
      simp only [val, entries_mk]
      constructor
      · rintro (h | ⟨en, hen, k', hk, hm⟩)
        · cases v0 <;> simp at h
        · cases hk
          rw [find_unique hlt hs hen]
          exact (ih en hen _ _).1 hm
      · intro h
        split at h
        · rename_i en hf
          have hen := List.mem_of_find?_eq_some hf
          have hk := List.find?_some hf
          refine Or.inr ⟨en, hen, xs, ?_, (ih en hen _ _).2 h⟩
          simp only [decide_eq_true_eq] at hk
          rw [hk]
        · cases h

theorem pairwise_flatEntries (hlt : LtOk lt) : ∀ (es : List (K × Node K V)), Sorted lt es →
    (∀ en ∈ es, (flat en.2).Pairwise (fun a b => lexLt lt a.1 b.1 = true)) →
    (flatEntries es).Pairwise (fun a b => lexLt lt a.1 b.1 = true)
  | [], _, _ => by simp [flatEntries]
  | en :: es, hs, h => by
    obtain ⟨x, c⟩ := en
    have hs' := List.pairwise_cons.1 hs
    rw [flatEntries, List.pairwise_append]
    refine ⟨?_, pairwise_flatEntries hlt es hs'.2 (fun en hen => h en (List.mem_cons_of_mem _ hen)), ?_⟩
    · rw [flatEntry, List.pairwise_map]
      refine (h (x, c) (List.mem_cons_self ..)).imp ?_
      intro a b hab
      simp [lexLt, hab]
    · intro a ha b hb
      obtain ⟨k, v⟩ := b
      obtain ⟨en, hen, k', rfl, _⟩ := (mem_flatEntries es k v).1 hb
      rw [flatEntry, List.mem_map] at ha
      obtain ⟨p, _, rfl⟩ := ha
      have := hs'.1 en hen
      simp only [lexLt]
      simp [this]

theorem pairwise_flat (hlt : LtOk lt) {t : Node K V} (h : Good lt t) :
    (flat t).Pairwise (fun a b => lexLt lt a.1 b.1 = true) := by
  induction h with
  | mk v cap es hs hc hg hn ih =>
    rw [flat.eq_def, List.pairwise_append]
    refine ⟨by cases v <;> simp, pairwise_flatEntries hlt es hs ih, ?_⟩
    intro a ha b hb
    obtain ⟨k, w⟩ := b
    obtain ⟨en, hen, k', rfl, _⟩ := (mem_flatEntries es k w).1 hb
    cases v with
    | none => simp at ha
    | some v =>
      simp only [List.mem_singleton] at ha
      subst ha
      rfl

/-- C07: after any history, the enumeration calls the callback for the bound keys in strictly
ascending (lexicographic) order, each with its latest value, until the callback returns non-zero. -/
theorem C07_enumeration (hlt : LtOk lt) (nul : K) (ops : List (Op K V)) :
    ∃ t, ∃ l : List (List K × V), run lt nul ops = some t ∧
      (∀ k v, (k, v) ∈ l ↔ specMap nul ops k = some v) ∧
      l.Pairwise (fun a b => lexLt lt a.1 b.1 = true) ∧
      ∀ (σ : Type) (f : Callback K V σ) (s : σ), foreach f s [] t = visit f s l := by
  obtain ⟨t, h1, h2, h3⟩ := run_spec hlt nul ops
  refine ⟨t, flat t, h1, ?_, pairwise_flat hlt h2, ?_⟩
  · intro k v
    rw [mem_flat hlt h2, h3]
  · intro σ f s
    rw [foreach_flat]
    simp

/-- The lexicographic order is irreflexive, so each key is visited once. -/
theorem C07_once (hlt : LtOk lt) (k : List K) : lexLt lt k k = false := by
  induction k with
  | nil => rfl
  | cons a k ih => simp [lexLt, hlt.irrefl, ih]

/-- If the callback always returns zero, it is called for every bound key: here it collects them. -/
theorem C07_collect (hlt : LtOk lt) (nul : K) (ops : List (Op K V)) :
    ∃ t, ∃ l : List (List K × V), run lt nul ops = some t ∧
      (∀ k v, (k, v) ∈ l ↔ specMap nul ops k = some v) ∧
      l.Pairwise (fun a b => lexLt lt a.1 b.1 = true) ∧
      foreach (fun (s : List (List K × V)) k v => (s ++ [(k, v)], 0)) [] [] t = (l, 0) := by
  obtain ⟨t, l, h1, h2, h3, h4⟩ := C07_enumeration hlt nul ops
  refine ⟨t, l, h1, h2, h3, ?_⟩
  rw [h4]
  have : ∀ (l s : List (List K × V)),
      visit (fun (s : List (List K × V)) k v => (s ++ [(k, v)], 0)) s l = (s ++ l, 0) := by
    intro l
    induction l with
    | nil => intro s; simp [visit]
    | cons p l ih => intro s; simp [visit, ih]
  simpa using this l []

/-! ## Prediction -/

variable {P : Type}

/-- Every node below the root carries a probability. -/
inductive AllVal : Node K P → Prop
  | mk (v : Option P) (cap : Nat) (es : List (K × Node K P))
      (hv : ∀ en ∈ es, (en.2.value).isSome = true) (hr : ∀ en ∈ es, AllVal en.2) :
      AllVal (.mk v cap es)

theorem allVal_iff (t : Node K P) : AllVal t ↔
    (∀ en ∈ t.entries, (en.2.value).isSome = true) ∧ (∀ en ∈ t.entries, AllVal en.2) := by
  cases t
  exact ⟨fun h => by cases h; exact ⟨‹_›, ‹_›⟩, fun ⟨a, b⟩ => .mk _ _ _ a b⟩

theorem addProbability_spec (hlt : LtOk lt) (D : Dbl P) (p : P) : ∀ (key : List K) (t : Node K P),
    Good lt t → AllVal t →
    ∃ t', addProbability D lt t p key = some t' ∧ Good lt t' ∧ AllVal t' ∧
      (t'.value).isSome = true ∧
      ∀ k, (val t' k).isSome = true ↔ (k <+: key ∨ (val t k).isSome = true)
  | [], t, hg, ha => by
    refine ⟨_, rfl, ?_, ?_, rfl, ?_⟩
    · cases t
      rw [bump, good_iff]
      exact (good_iff _ _ _).1 hg
    · rw [allVal_iff] at ha ⊢
      exact ha
    · intro k
      cases k with
      | nil => simp [val, bump]
      | cons x xs => simp [val, bump]
  | k :: ks, t, hg, ha => by
    obtain ⟨hs, hc, hgs, hn⟩ := good_parts hg
    obtain ⟨hv, har⟩ := (allVal_iff t).1 ha
    obtain ⟨pre, c, post, hl, hs', hor⟩ := locate_spec hlt (bump D t p) k hs hc
    have hent : (bump D t p).entries = t.entries := rfl
    rw [hent] at hor
    have hpre := (sorted_mid hlt hs').1
    have hpost := (sorted_mid hlt hs').2
    have hgc : Good lt c ∧ AllVal c ∧ (∀ en ∈ pre ++ post, Good lt en.2) ∧
        (∀ en ∈ pre ++ post, isEmpty en.2 = false) ∧
        (∀ en ∈ pre ++ post, (en.2.value).isSome = true) ∧ (∀ en ∈ pre ++ post, AllVal en.2) := by
      rcases hor with he | ⟨he, rfl⟩
      · rw [he] at hgs hn hv har
        exact ⟨(forall_mid.1 hgs).2, (forall_mid.1 har).2, (forall_mid.1 hgs).1, (forall_mid.1 hn).1,
          (forall_mid.1 hv).1, (forall_mid.1 har).1⟩
      · rw [he] at hgs hn hv har
        exact ⟨good_create, (allVal_iff _).2 ⟨by simp [create], by simp [create]⟩, hgs, hn, hv, har⟩
    obtain ⟨c', hset, hgc', hac', hvc', hval⟩ := addProbability_spec hlt D p ks c hgc.1 hgc.2.1
    refine ⟨.mk (bump D t p).value (raiseCount (pre ++ (k, c) :: post).length)
      (pre ++ (k, c') :: post), ?_, ?_, ?_, rfl, ?_⟩
    · rw [addProbability, hl]
      simp only [entries_mk, get_mid, hset, setChild_mid]
    · rw [good_iff]
      refine ⟨sorted_replace hs', by simp, forall_mid.2 ⟨hgc.2.2.1, hgc'⟩,
        forall_mid.2 ⟨hgc.2.2.2.1, ?_⟩⟩
      simp only [isEmpty]
      rw [Option.isNone_eq_false_iff.2 hvc', Bool.and_false]
    · rw [allVal_iff]
      exact ⟨forall_mid.2 ⟨hgc.2.2.2.2.1, hvc'⟩, forall_mid.2 ⟨hgc.2.2.2.2.2, hac'⟩⟩
    · intro k'
      cases k' with
      | nil => simp [val, bump]
      | cons x xs =>
        simp only [val, entries_mk, List.cons_prefix_cons]
        by_cases hx : x = k
        · subst hx
          rw [find_mid hpre]
          simp only [hval, true_and]
          rcases hor with he | ⟨he, rfl⟩
          · simp only [he, find_mid hpre]
          · simp only [he, find_none hpre hpost, val_create]
        · rw [find_other hx]
          simp only [hx, false_and, false_or]
          rcases hor with he | ⟨he, rfl⟩
          · simp only [he, find_other hx]
          · simp only [he]

/-- Records keys with probabilities (lineedit/editing.c:2514-2535 `create_prediction_tree`). -/
def record (D : Dbl P) (lt : K → K → Bool) (keys : List (List K × P)) : Option (Node K P) :=
  keys.foldlM (fun t kp => addProbability D lt t kp.2 kp.1) create

theorem record_spec (hlt : LtOk lt) (D : Dbl P) (keys : List (List K × P)) :
    ∃ t, record D lt keys = some t ∧ Good lt t ∧ AllVal t ∧
      ∀ k, (val t k).isSome = true → ∃ kp ∈ keys, k <+: kp.1 := by
  have key : ∀ (keys done : List (List K × P)) (t : Node K P), Good lt t → AllVal t →
      (∀ k, (val t k).isSome = true → ∃ kp ∈ done, k <+: kp.1) →
      ∃ t', keys.foldlM (fun t kp => addProbability D lt t kp.2 kp.1) t = some t' ∧ Good lt t' ∧
        AllVal t' ∧ ∀ k, (val t' k).isSome = true → ∃ kp ∈ done ++ keys, k <+: kp.1 := by
    intro keys
    induction keys with
    | nil => intro done t hg ha hd; exact ⟨t, rfl, hg, ha, by simpa using hd⟩
    | cons kp keys ih =>
      intro done t hg ha hd
      obtain ⟨t1, h1, h2, h3, _, h5⟩ := addProbability_spec hlt D kp.2 kp.1 t hg ha
      obtain ⟨t2, h6, h7, h8, h9⟩ := ih (done ++ [kp]) t1 h2 h3 (by
        intro k hk
        rcases (h5 k).1 hk with hk | hk
        · exact ⟨kp, by simp, hk⟩
        · obtain ⟨kp', hm, hp⟩ := hd k hk
          exact ⟨kp', by simp [hm], hp⟩)
      refine ⟨t2, ?_, h7, h8, by simpa using h9⟩
      rw [List.foldlM_cons, h1]
      exact h6
  obtain ⟨t, h1, h2, h3, h4⟩ := key keys [] create good_create
    ((allVal_iff _).2 ⟨by simp [create], by simp [create]⟩) (by
      intro k hk
      rw [val_create] at hk
      cases hk)
  exact ⟨t, h1, h2, h3, by simpa using h4⟩

theorem mostProbableLoop_spec (D : Dbl P) : ∀ (es : List (K × Node K P)) (m : P)
    (e0 : Option (K × Node K P)), (∀ en ∈ es, (en.2.value).isSome = true) →
    ∃ r, mostProbableLoop D es m e0 = some r ∧ (r = e0 ∨ ∃ en ∈ es, r = some en)
  | [], m, e0, _ => ⟨e0, rfl, Or.inl rfl⟩
  | en :: es, m, e0, h => by
    have h1 := h en (List.mem_cons_self ..)
    have h2 : ∀ en ∈ es, (en.2.value).isSome = true := fun e he => h e (List.mem_cons_of_mem _ he)
    rw [mostProbableLoop]
    cases hv : en.2.value with
    | none => rw [hv] at h1; cases h1
    | some p =>
      dsimp only
      split
      · obtain ⟨r, h3, h4⟩ := mostProbableLoop_spec D es p (some en) h2
        refine ⟨r, h3, Or.inr ?_⟩
        rcases h4 with rfl | ⟨e, he, rfl⟩
        · exact ⟨en, List.mem_cons_self .., rfl⟩
        · exact ⟨e, List.mem_cons_of_mem _ he, rfl⟩
      · obtain ⟨r, h3, h4⟩ := mostProbableLoop_spec D es m e0 h2
        refine ⟨r, h3, ?_⟩
        rcases h4 with rfl | ⟨e, he, rfl⟩
        · exact Or.inl rfl
        · exact Or.inr ⟨e, List.mem_cons_of_mem _ he, rfl⟩

theorem mostProbableChild_spec (D : Dbl P) {t : Node K P} (h : AllVal t) :
    ∃ r, mostProbableChild D t = some r ∧ (r = none ∨ ∃ en ∈ t.entries, r = some en) := by
  unfold mostProbableChild
  exact mostProbableLoop_spec D t.entries D.negHuge none ((allVal_iff t).1 h).1

theorem heightEntries_le {es : List (K × Node K P)} {en : K × Node K P} (h : en ∈ es) :
    height en.2 ≤ heightEntries es := by
  induction es with
  | nil => cases h
  | cons e es ih =>
    obtain ⟨x, c⟩ := e
    rw [heightEntries, heightEntry]
    cases h with
    | head => exact Nat.le_max_left _ _
    | tail _ h => exact Nat.le_trans (ih h) (Nat.le_max_right _ _)

theorem height_child {t : Node K P} {en : K × Node K P} (h : en ∈ t.entries) :
    height en.2 + 1 ≤ height t := by
  cases t with
  | mk v cap es =>
    rw [height]
    exact Nat.succ_le_succ (heightEntries_le h)

theorem probableLoop_spec (hlt : LtOk lt) (D : Dbl P) (isBlank : K → Bool) (threshold : P) :
    ∀ (fuel : Nat) (t : Node K P) (entry : Option (K × Node K P)) (key : List K), Good lt t →
    AllVal t → (∀ en, entry = some en → en ∈ t.entries) → height t ≤ fuel →
    ∃ r, probableLoop D isBlank threshold fuel entry key = some (key ++ r) ∧
      (r ≠ [] → (val t r).isSome = true)
  | fuel, t, none, key, _, _, _, _ => by
    refine ⟨[], ?_, fun h => absurd rfl h⟩
    cases fuel <;> simp [probableLoop]
  | 0, t, some en, key, _, _, _, hf => by
    cases t with
    | mk v cap es => rw [height] at hf; omega
  | fuel + 1, t, some (k, c), key, hg, ha, he, hf => by
    have hmem := he (k, c) rfl
    obtain ⟨hs, _, hgs, _⟩ := good_parts hg
    obtain ⟨hv, har⟩ := (allVal_iff t).1 ha
    have hcv := hv _ hmem
    have hfind := find_unique hlt hs hmem
    rw [probableLoop]
    cases hcval : c.value with
    | none => simp only [hcval] at hcv; cases hcv
    | some p =>
      dsimp only
      split
      · obtain ⟨e, h1, h2⟩ := mostProbableChild_spec D (har _ hmem)
        have hh := height_child hmem
        obtain ⟨r, h3, h4⟩ := probableLoop_spec hlt D isBlank threshold fuel c e (key ++ [k])
          (hgs _ hmem) (har _ hmem) (by
            intro en hen
            rcases h2 with rfl | ⟨e', he', rfl⟩
            · cases hen
            · cases hen; exact he') (by simp only at hh; omega)
        simp only at h1
        rw [h1]
        refine ⟨k :: r, by simpa using h3, ?_⟩
        intro _
        simp only [val, hfind]
        cases r with
        | nil => simpa [val] using hcv
        | cons x xs => exact h4 (by simp)
      · exact ⟨[], by simp, fun h => absurd rfl h⟩

theorem skipKey_spec (hlt : LtOk lt) : ∀ (ks : List K) (t : Node K P), Good lt t → AllVal t →
    ∃ r, skipKey lt t ks = some r ∧ ∀ t', r = some t' → Good lt t' ∧ AllVal t' ∧
      ∀ k, val t' k = val t (ks ++ k)
  | [], t, hg, ha => ⟨some t, rfl, by rintro t' rfl_; cases rfl_; exact ⟨hg, ha, fun k => rfl⟩⟩
  | k :: ks, t, hg, ha => by
    obtain ⟨hs, _, hgs, _⟩ := good_parts hg
    obtain ⟨hv, har⟩ := (allVal_iff t).1 ha
    rcases search_spec hlt t k hs with ⟨pre, c, post, he, hr⟩ | ⟨pre, post, he, h1, h2, hr⟩
    · have hpre := (sorted_mid hlt (he ▸ hs)).1
      have hmem : (k, c) ∈ t.entries := by rw [he]; simp
      obtain ⟨r, h1, h2⟩ := skipKey_spec hlt ks c (hgs _ hmem) (har _ hmem)
      refine ⟨r, ?_, ?_⟩
      · rw [skipKey, hr]
        simp only [Int.toNat_natCast, he, get_mid, h1]
        rw [if_neg (by omega)]
      · intro t' ht'
        obtain ⟨a, b, c'⟩ := h2 t' ht'
        refine ⟨a, b, fun k' => ?_⟩
        rw [c', List.cons_append]
        simp only [val, he, find_mid hpre]
    · refine ⟨none, ?_, by rintro t' h; cases h⟩
      rw [skipKey, hr]
      dsimp only
      rw [if_pos (by omega)]

/-- C35: predictions never fail an assertion, and a non-empty prediction always extends what has
been typed to a prefix of a recorded key, whatever the probabilities are. -/
theorem C35_prediction (hlt : LtOk lt) (D : Dbl P) (isBlank : K → Bool)
    (keys : List (List K × P)) (typed : List K) :
    ∃ t r, record D lt keys = some t ∧ probableKey D lt isBlank t typed = some r ∧
      (r ≠ [] → ∃ kp ∈ keys, typed ++ r <+: kp.1) := by
  obtain ⟨t, h1, h2, h3, h4⟩ := record_spec hlt D keys
  obtain ⟨o, h5, h6⟩ := skipKey_spec hlt typed t h2 h3
  refine ⟨t, ?_⟩
  rw [probableKey, h5]
  cases o with
  | none => exact ⟨[], h1, rfl, fun h => absurd rfl h⟩
  | some t' =>
    obtain ⟨a, b, c⟩ := h6 t' rfl
    obtain ⟨e, h7, h8⟩ := mostProbableChild_spec D b
    simp only [h7]
    rcases h8 with rfl | ⟨en, hen, rfl⟩
    · exact ⟨[], h1, rfl, fun h => absurd rfl h⟩
    · obtain ⟨k, ch⟩ := en
      have hv := ((allVal_iff t').1 b).1 _ hen
      cases hcv : ch.value with
      | none => simp only [hcv] at hv; cases hv
      | some p =>
        obtain ⟨r, h9, h10⟩ := probableLoop_spec hlt D isBlank (D.half p) (height t') t'
          (some (k, ch)) [] a b (by rintro en' h; cases h; exact hen) (Nat.le_refl _)
        refine ⟨r, h1, by simpa [hcv] using h9, ?_⟩
        intro hr
        exact h4 _ (by rw [← c]; exact h10 hr)

/-- Recording `1 2 3` and then typing `1` predicts `2 3`. -/
example : (do
    let t ← record (K := Nat) (P := Nat) ⟨(· + ·), fun a b => decide (a > b), fun a b => decide (a ≥ b),
      (· / 2), 0⟩ (fun a b => decide (a < b)) [([1, 2, 3], 5), ([1, 4], 1)]
    probableKey ⟨(· + ·), fun a b => decide (a > b), fun a b => decide (a ≥ b), (· / 2), 0⟩
      (fun a b => decide (a < b)) (fun _ => false) t [1]) = some [2, 3] := by
  decide +kernel

end Yash.Trie
