import Verif.HashTable.Spec
/-! Proof scripts for the hash table: representation invariant and its preservation. -/
set_option autoImplicit false
set_option linter.unusedSimpArgs false

namespace Yash.HashTable

open Spec

variable {K V : Type}

/-- `l` is the list of indices visited from link `p`. -/
def Linked (es : List (Entry K V)) : Option Nat → List Nat → Prop
  | none, [] => True
  | some i, j :: r => i = j ∧ ∃ e, es[i]? = some e ∧ Linked es e.next r
  | _, _ => False

theorem Linked.congr {es es' : List (Entry K V)} : ∀ {l : List Nat} {p : Option Nat},
    (∀ i ∈ l, (es'[i]?).map Entry.next = (es[i]?).map Entry.next) →
    Linked es p l → Linked es' p l
  | [], none, _, h => h
  | [], some _, _, h => h.elim
  | _ :: _, none, _, h => h.elim
  | j :: r, some i, hc, h => by
    obtain ⟨rfl, e, he, hl⟩ := h
    have h1 := hc i (by simp)
    rw [he] at h1
    simp only [Option.map_some, Option.map_eq_some_iff] at h1
    obtain ⟨e', he', hn⟩ := h1
    refine ⟨rfl, e', he', ?_⟩
    rw [hn]
    exact Linked.congr (fun i hi => hc i (by simp [hi])) hl

theorem Linked.set {es : List (Entry K V)} {l : List Nat} {p : Option Nat} {i : Nat} {e : Entry K V} (hi : i ∉ l) (h : Linked es p l) :
    Linked (es.set i e) p l := by
  refine Linked.congr (fun j hj => ?_) h
  have : i ≠ j := fun h => hi (h ▸ hj)
  simp [List.getElem?_set, this]

theorem nodup_lt_length : ∀ (n : Nat) (l : List Nat), l.Nodup → (∀ i ∈ l, i < n) → l.length ≤ n
  | 0, l, _, h => by
    cases l with
    | nil => simp
    | cons a t => exact absurd (h a (by simp)) (by omega)
  | n + 1, l, hd, h => by
    have h1 := nodup_lt_length n (l.erase n) (hd.erase n) (by
      intro i hi
      have := (hd.mem_erase_iff).1 hi
      have := h i this.2
      omega)
    have := List.length_erase (a := n) (l := l)
    split at this <;> omega

/-- The pairs stored in an entry array. -/
def kvs (es : List (Entry K V)) : List (K × V) := es.filterMap (·.kv)

theorem mem_kvs {es : List (Entry K V)} {kv : K × V} :
    kv ∈ kvs es ↔ ∃ (i : Nat) (e : Entry K V), es[i]? = some e ∧ e.kv = some kv := by
  unfold kvs
  rw [List.mem_filterMap]
  simp only [List.mem_iff_getElem?]
  constructor
  · rintro ⟨e, ⟨i, hi⟩, he⟩; exact ⟨i, e, hi, he⟩
  · rintro ⟨i, e, hi, he⟩; exact ⟨e, ⟨i, hi⟩, he⟩

theorem split_at {α : Type} {l : List α} {i : Nat} {a : α} (h : l[i]? = some a) :
    ∃ s t, l = s ++ a :: t ∧ s.length = i := by
  obtain ⟨hi, rfl⟩ := List.getElem?_eq_some_iff.1 h
  refine ⟨l.take i, l.drop (i + 1), ?_, by simp; omega⟩
  simp

theorem set_split {α : Type} (s t : List α) (a b : α) : (s ++ a :: t).set s.length b = s ++ b :: t := by
  simp

/-- The representation invariant. -/
structure RepInv (c : Cfg K) (ht : Table K V) (chains : Nat → List Nat) (free : List Nat) : Prop where
  cap_pos : 0 < ht.capacity
  ilen : ht.indices.length = ht.capacity
  elen : ht.entries.length = ht.capacity
  tail_le : ht.tailindex ≤ ht.capacity
  link : ∀ b, b < ht.capacity → ∃ p, ht.indices[b]? = some p ∧ Linked ht.entries p (chains b)
  flink : Linked ht.entries ht.emptyindex free
  cnodup : ∀ b, b < ht.capacity → (chains b).Nodup
  fnodup : free.Nodup
  cmem : ∀ b i, b < ht.capacity → (i ∈ chains b ↔
    ∃ (e : Entry K V) (kv : K × V), ht.entries[i]? = some e ∧ e.kv = some kv ∧
      c.hash kv.1 % ht.capacity = b)
  fmem : ∀ i, i ∈ free ↔ i < ht.tailindex ∧ ∃ e : Entry K V, ht.entries[i]? = some e ∧ e.kv = none
  occ : ∀ (i : Nat) (e : Entry K V) (kv : K × V), ht.entries[i]? = some e → e.kv = some kv →
    e.hash = c.hash kv.1 ∧ i < ht.tailindex
  uniq : ∀ (i j : Nat) (e e' : Entry K V) (kv kv' : K × V), ht.entries[i]? = some e → e.kv = some kv →
    ht.entries[j]? = some e' → e'.kv = some kv' → c.keyeq kv.1 kv'.1 = true → i = j
  cnt : ht.count = (kvs ht.entries).length

/-- The table stores the map `m`. -/
def Abs (c : Cfg K) (ht : Table K V) (m : FMap K V) : Prop :=
  ∀ k kv, m k = some kv ↔ kv ∈ kvs ht.entries ∧ c.keyeq kv.1 k = true

theorem RepInv.chain_len {c : Cfg K} {ht : Table K V} {ch : Nat → List Nat} {fr : List Nat} (h : RepInv c ht ch fr) {b : Nat}
    (hb : b < ht.capacity) : (ch b).length ≤ ht.capacity := by
  refine nodup_lt_length _ _ (h.cnodup b hb) (fun i hi => ?_)
  obtain ⟨e, kv, he, hkv, _⟩ := (h.cmem b i hb).1 hi
  have := (List.getElem?_eq_some_iff.1 he).1
  rw [h.elen] at this; exact this

theorem findLoop_spec {c : Cfg K} (lc : Lawful c) {es : List (Entry K V)} {key : K} :
    ∀ {l : List Nat} {p : Option Nat} {fuel : Nat}, Linked es p l → l.length ≤ fuel →
    (∀ i ∈ l, ∃ (e : Entry K V) (kv : K × V), es[i]? = some e ∧ e.kv = some kv ∧ e.hash = c.hash kv.1) →
    ∃ r, findLoop c es (c.hash key) key fuel p = some r ∧
      (∀ i, r = some i → i ∈ l ∧ ∃ (e : Entry K V) (kv : K × V), es[i]? = some e ∧ e.kv = some kv ∧
        e.hash = c.hash kv.1 ∧ c.keyeq kv.1 key = true) ∧
      (r = none → ∀ i ∈ l, ∀ (e : Entry K V) (kv : K × V), es[i]? = some e → e.kv = some kv → c.keyeq kv.1 key = false)
  | [], none, fuel, _, _, _ => ⟨none, by cases fuel <;> simp [findLoop], by simp, by simp⟩
  | [], some _, _, h, _, _ => h.elim
  | _ :: _, none, _, h, _, _ => h.elim
  | j :: r, some i, 0, _, hf, _ => by simp at hf
  | j :: r, some i, fuel + 1, h, hf, ho => by
    obtain ⟨rfl, e, he, hl⟩ := h
    obtain ⟨e', kv, he', hkv, hh⟩ := ho i (by simp)
    rw [he] at he'; cases he'
    obtain ⟨res, hres, hs, hn⟩ := findLoop_spec lc (key := key) hl (by simpa using hf)
      (fun i hi => ho i (by simp [hi]))
    by_cases hk : c.keyeq kv.1 key = true
    · have h1 : e.hash = c.hash key := hh.trans (lc.hash _ _ hk)
      exact ⟨some i, by simp [findLoop, he, hkv, h1, hk], by
        rintro _ ⟨⟩
        exact ⟨by simp, e, kv, he, hkv, hh, hk⟩, by simp⟩
    · refine ⟨res, ?_, ?_, ?_⟩
      · by_cases h1 : e.hash = c.hash key <;> simp [findLoop, he, hkv, h1, hk, hres]
      · intro i hi
        obtain ⟨h2, h3⟩ := hs i hi
        exact ⟨by simp [h2], h3⟩
      · intro h2 i' hi' e2 kv2 he2 hkv2
        rcases List.mem_cons.1 hi' with rfl | hi'
        · rw [he] at he2; cases he2; rw [hkv] at hkv2; cases hkv2
          simpa using hk
        · exact hn h2 i' hi' e2 kv2 he2 hkv2

/-- Common part of `get` and `set`. -/
theorem RepInv.find {c : Cfg K} (lc : Lawful c) {ht : Table K V} {ch : Nat → List Nat} {fr : List Nat} (h : RepInv c ht ch fr)
    (key : K) : ∃ p r, ht.indices[c.hash key % ht.capacity]? = some p ∧
      findLoop c ht.entries (c.hash key) key (ht.capacity + 1) p = some r ∧
      (∀ i, r = some i → ∃ (e : Entry K V) (kv : K × V), ht.entries[i]? = some e ∧ e.kv = some kv ∧
        e.hash = c.hash kv.1 ∧ c.keyeq kv.1 key = true) ∧
      (r = none → ∀ kv ∈ kvs ht.entries, c.keyeq kv.1 key = false) := by
  have hb := Nat.mod_lt (c.hash key) h.cap_pos
  obtain ⟨p, hp, hl⟩ := h.link _ hb
  have hlen := h.chain_len hb
  obtain ⟨r, hr, h1, h2⟩ := findLoop_spec lc (key := key) (fuel := ht.capacity + 1) hl (by omega)
    (fun i hi => by
      obtain ⟨e, kv, he, hkv, _⟩ := (h.cmem _ i hb).1 hi
      exact ⟨e, kv, he, hkv, (h.occ _ _ _ he hkv).1⟩)
  refine ⟨p, r, hp, hr, fun i hi => (h1 i hi).2, fun hn kv hkv => ?_⟩
  by_cases hk : c.keyeq kv.1 key = true
  · obtain ⟨i, e, he, hekv⟩ := mem_kvs.1 hkv
    have : i ∈ ch (c.hash key % ht.capacity) :=
      (h.cmem _ i hb).2 ⟨e, kv, he, hekv, by rw [lc.hash _ _ hk]⟩
    exact h2 hn i this e kv he hekv
  · simpa using hk

theorem get_spec {c : Cfg K} (lc : Lawful c) {ht : Table K V} {ch : Nat → List Nat} {fr : List Nat} {m : FMap K V} (h : RepInv c ht ch fr)
    (ha : Abs c ht m) (key : K) : get c ht key = some (m key) := by
  obtain ⟨p, r, hp, hr, h1, h2⟩ := h.find lc key
  unfold get
  cases r with
  | none =>
    have : m key = none := by
      cases hm : m key with
      | none => rfl
      | some kv =>
        have := (ha key kv).1 hm
        have h3 := h2 rfl kv this.1
        rw [h3] at this; cases this.2
    simp [hp, hr, this]
  | some i =>
    obtain ⟨e, kv, he, hkv, hh, hk⟩ := h1 i rfl
    have : m key = some kv := (ha key kv).2 ⟨mem_kvs.2 ⟨i, e, he, hkv⟩, hk⟩
    simp [hp, hr, he, hkv, this]

theorem mem_kvs_set {es : List (Entry K V)} {i : Nat} {e e' : Entry K V} (h : es[i]? = some e) (kv : K × V) :
    kv ∈ kvs (es.set i e') ↔
      e'.kv = some kv ∨ ∃ (j : Nat) (e2 : Entry K V), j ≠ i ∧ es[j]? = some e2 ∧ e2.kv = some kv := by
  rw [mem_kvs]
  have hlt := (List.getElem?_eq_some_iff.1 h).1
  constructor
  · rintro ⟨j, e2, hj, hkv⟩
    by_cases hij : i = j
    · subst hij
      simp [List.getElem?_set, hlt] at hj
      subst hj; exact Or.inl hkv
    · simp only [List.getElem?_set, hij, if_false] at hj
      exact Or.inr ⟨j, e2, fun h => hij h.symm, hj, hkv⟩
  · rintro (hkv | ⟨j, e2, hji, hj, hkv⟩)
    · exact ⟨i, e', by simp [List.getElem?_set, hlt], hkv⟩
    · exact ⟨j, e2, by rw [List.getElem?_set_ne (Ne.symm hji)]; exact hj, hkv⟩

theorem kvs_set_length {es : List (Entry K V)} {i : Nat} {e e' : Entry K V} (h : es[i]? = some e) :
    (kvs (es.set i e')).length + (if e.kv.isSome then 1 else 0) =
      (kvs es).length + (if e'.kv.isSome then 1 else 0) := by
  obtain ⟨s, t, rfl, rfl⟩ := split_at h
  rw [set_split]
  unfold kvs
  simp only [List.filterMap_append, List.filterMap_cons, List.length_append]
  cases e.kv <;> cases e'.kv <;> simp <;> omega

theorem set_replace {c : Cfg K} (lc : Lawful c) {ht : Table K V} {ch : Nat → List Nat} {fr : List Nat} {m : FMap K V} (h : RepInv c ht ch fr)
    (ha : Abs c ht m) {key : K} {v : V} {i : Nat} {e : Entry K V} {kv : K × V} (he : ht.entries[i]? = some e)
    (hkv : e.kv = some kv) (hk : c.keyeq kv.1 key = true) :
    RepInv c { ht with entries := ht.entries.set i { e with kv := some (key, v) } } ch fr ∧
    Abs c { ht with entries := ht.entries.set i { e with kv := some (key, v) } }
      (step c.keyeq m (.set key v)).1 := by
  have hlt := (List.getElem?_eq_some_iff.1 he).1
  have hget : ∀ (j : Nat) (e2 : Entry K V), (ht.entries.set i { e with kv := some (key, v) })[j]? = some e2 →
      (j = i ∧ e2 = { e with kv := some (key, v) }) ∨ (j ≠ i ∧ ht.entries[j]? = some e2) := by
    intro j e2 hj
    by_cases hij : i = j
    · subst hij
      simp [List.getElem?_set, hlt] at hj
      exact Or.inl ⟨rfl, hj.symm⟩
    · rw [List.getElem?_set_ne hij] at hj
      exact Or.inr ⟨fun h => hij h.symm, hj⟩
  have hself : (ht.entries.set i { e with kv := some (key, v) })[i]? =
      some { e with kv := some (key, v) } := by simp [List.getElem?_set, hlt]
  have hother : ∀ j : Nat, j ≠ i → (ht.entries.set i { e with kv := some (key, v) })[j]? =
      ht.entries[j]? := fun j hj => List.getElem?_set_ne (Ne.symm hj)
  have hnext : ∀ j : Nat, ((ht.entries.set i { e with kv := some (key, v) })[j]?).map Entry.next =
      (ht.entries[j]?).map Entry.next := by
    intro j
    by_cases hij : j = i
    · subst hij; rw [hself, he]; rfl
    · rw [hother j hij]
  have hhash := lc.hash _ _ hk
  constructor
  · constructor
    · exact h.cap_pos
    · exact h.ilen
    · simpa using h.elen
    · exact h.tail_le
    · intro b hb
      obtain ⟨p, hp, hl⟩ := h.link b hb
      exact ⟨p, hp, hl.congr (fun j _ => hnext j)⟩
    · exact h.flink.congr (fun j _ => hnext j)
    · exact h.cnodup
    · exact h.fnodup
    · intro b j hb
      rw [h.cmem b j hb]
      by_cases hij : j = i
      · subst hij
        constructor
        · rintro ⟨e2, kv2, h2, h3, h4⟩
          rw [he] at h2; cases h2; rw [hkv] at h3; cases h3
          exact ⟨_, _, hself, rfl, by rw [← h4, hhash]⟩
        · rintro ⟨e2, kv2, h2, h3, h4⟩
          rw [hself] at h2; cases h2; cases h3
          exact ⟨_, _, he, hkv, by rw [← h4, hhash]⟩
      · simp only [hother j hij]
    · intro j
      rw [h.fmem]
      by_cases hij : j = i
      · subst hij
        simp only [hself, he, Option.some.injEq, exists_eq_left', hkv]
        simp
      · simp only [hother j hij]
    · intro j e2 kv2 h2 h3
      rcases hget j e2 h2 with ⟨rfl, rfl⟩ | ⟨_, h4⟩
      · cases h3
        have := h.occ j e kv he hkv
        exact ⟨by simpa [hhash] using this.1, this.2⟩
      · exact h.occ j e2 kv2 h4 h3
    · intro j1 j2 e1 e2 kv1 kv2 h1 h2 h3 h4 h5
      rcases hget j1 e1 h1 with ⟨rfl, rfl⟩ | ⟨n1, h1'⟩ <;>
        rcases hget j2 e2 h3 with ⟨h6, h7⟩ | ⟨n2, h3'⟩
      · exact h6.symm
      · cases h2
        exact h.uniq _ _ _ _ _ _ he hkv h3' h4 (lc.trans _ _ _ hk h5)
      · subst h6 h7; cases h4
        exact h.uniq _ _ _ _ _ _ h1' h2 he hkv (lc.trans _ _ _ h5 (lc.symm _ _ hk))
      · exact h.uniq _ _ _ _ _ _ h1' h2 h3' h4 h5
    · have := kvs_set_length (e' := { e with kv := some (key, v) }) he
      have h2 := h.cnt
      simp only [hkv, Option.isSome_some, if_true] at this
      simp only; omega
  · intro k kv2
    simp only [step]
    rw [mem_kvs_set he]
    by_cases hkk : c.keyeq key k = true
    · simp only [hkk, if_true]
      constructor
      · rintro ⟨⟩; exact ⟨Or.inl rfl, hkk⟩
      · rintro ⟨h1 | ⟨j, e2, hj, h2, h3⟩, h4⟩
        · exact h1
        · exact absurd (h.uniq _ _ _ _ _ _ h2 h3 he hkv
            (lc.trans _ _ _ h4 (lc.symm _ _ (lc.trans _ _ _ hk hkk)))) hj
    · simp only [hkk]
      rw [if_neg (by simp), ha k kv2, mem_kvs]
      constructor
      · rintro ⟨⟨j, e2, h2, h3⟩, h4⟩
        refine ⟨Or.inr ⟨j, e2, ?_, h2, h3⟩, h4⟩
        rintro rfl
        rw [he] at h2; cases h2; rw [hkv] at h3; cases h3
        exact hkk (lc.trans _ _ _ (lc.symm _ _ hk) h4)
      · rintro ⟨h1 | ⟨j, e2, hj, h2, h3⟩, h4⟩
        · cases h1; exact absurd h4 hkk
        · exact ⟨⟨j, e2, h2, h3⟩, h4⟩

/-- Storing a new key in a slot that is not in use. -/
theorem insert_inv {c : Cfg K} (lc : Lawful c) {ht : Table K V} {ch : Nat → List Nat} {fr : List Nat} (h : RepInv c ht ch fr)
    {key : K} {v : V} (hnew : ∀ kv ∈ kvs ht.entries, c.keyeq kv.1 key = false)
    {idx : Nat} {e : Entry K V} {link empty' : Option Nat} {free' : List Nat} {tail' : Nat}
    (he : ht.entries[idx]? = some e) (hkv : e.kv = none)
    (hlink : ht.indices[c.hash key % ht.capacity]? = some link)
    (hfl : Linked ht.entries empty' free') (hfn : free'.Nodup)
    (hfm : ∀ i, i ∈ free' ↔ i ≠ idx ∧ i ∈ fr)
    (htl : ∀ i, i ≠ idx → (i < tail' ↔ i < ht.tailindex))
    (htl' : idx < tail') (htc : tail' ≤ ht.capacity) :
    let mh := c.hash key % ht.capacity
    let ht' : Table K V := { ht with
      emptyindex := empty'
      tailindex := tail'
      entries := ht.entries.set idx { next := link, hash := c.hash key, kv := some (key, v) }
      indices := ht.indices.set mh (some idx)
      count := ht.count + 1 }
    RepInv c ht' (fun b => if b = mh then idx :: ch b else ch b) free' ∧
    (∀ kv, kv ∈ kvs ht'.entries ↔ kv = (key, v) ∨ kv ∈ kvs ht.entries) := by
  intro mh ht'
  have hlt := (List.getElem?_eq_some_iff.1 he).1
  have hmh : mh < ht.capacity := Nat.mod_lt _ h.cap_pos
  have hself : ht'.entries[idx]? =
      some { next := link, hash := c.hash key, kv := some (key, v) } := by
    simp [ht', List.getElem?_set, hlt]
  have hother : ∀ j : Nat, j ≠ idx → ht'.entries[j]? = ht.entries[j]? :=
    fun j hj => List.getElem?_set_ne (Ne.symm hj)
  have hget : ∀ (j : Nat) (e2 : Entry K V), ht'.entries[j]? = some e2 →
      (j = idx ∧ e2 = { next := link, hash := c.hash key, kv := some (key, v) }) ∨
      (j ≠ idx ∧ ht.entries[j]? = some e2) := by
    intro j e2 hj
    by_cases hij : j = idx
    · subst hij
      rw [hself] at hj; cases hj; exact Or.inl ⟨rfl, rfl⟩
    · rw [hother j hij] at hj
      exact Or.inr ⟨hij, hj⟩
  have hnotin : ∀ b, b < ht.capacity → idx ∉ ch b := by
    intro b hb hi
    obtain ⟨e2, kv2, h2, h3, _⟩ := (h.cmem b idx hb).1 hi
    rw [he] at h2; cases h2; rw [hkv] at h3; cases h3
  have hmem : ∀ kv, kv ∈ kvs ht'.entries ↔ kv = (key, v) ∨ kv ∈ kvs ht.entries := by
    intro kv
    show kv ∈ kvs (ht.entries.set idx _) ↔ _
    rw [mem_kvs_set he, mem_kvs]
    constructor
    · rintro (h1 | ⟨j, e2, _, h2, h3⟩)
      · cases h1; exact Or.inl rfl
      · exact Or.inr ⟨j, e2, h2, h3⟩
    · rintro (rfl | ⟨j, e2, h2, h3⟩)
      · exact Or.inl rfl
      · refine Or.inr ⟨j, e2, ?_, h2, h3⟩
        rintro rfl
        rw [he] at h2; cases h2; rw [hkv] at h3; cases h3
  refine ⟨?_, hmem⟩
  constructor
  · exact h.cap_pos
  · simpa [ht'] using h.ilen
  · simpa [ht'] using h.elen
  · exact htc
  · intro b hb
    show ∃ p, ht'.indices[b]? = some p ∧ Linked ht'.entries p (if b = mh then idx :: ch b else ch b)
    obtain ⟨p, hp, hl⟩ := h.link b hb
    by_cases hbm : b = mh
    · subst hbm
      refine ⟨some idx, ?_, ?_⟩
      · simp [ht', List.getElem?_set, h.ilen, hmh]
      · rw [if_pos rfl]
        refine ⟨rfl, _, hself, ?_⟩
        have : p = link := by
          have := hp.symm.trans hlink
          exact Option.some.inj this
        subst this
        exact hl.set (hnotin _ hmh)
    · refine ⟨p, ?_, ?_⟩
      · simp only [ht']; rw [List.getElem?_set_ne (Ne.symm hbm)]; exact hp
      · rw [if_neg hbm]; exact hl.set (hnotin _ hb)
  · exact hfl.set (fun hi => ((hfm idx).1 hi).1 rfl)
  · intro b hb
    show (if b = mh then idx :: ch b else ch b).Nodup
    split
    · exact List.nodup_cons.2 ⟨hnotin b hb, h.cnodup b hb⟩
    · exact h.cnodup b hb
  · exact hfn
  · intro b j hb
    show j ∈ (if b = mh then idx :: ch b else ch b) ↔
      ∃ e kv, ht'.entries[j]? = some e ∧ e.kv = some kv ∧ c.hash kv.1 % ht.capacity = b
    by_cases hj : j = idx
    · subst hj
      have h1 := hnotin b hb
      constructor
      · intro h2
        split at h2
        · next h3 => exact ⟨_, _, hself, rfl, h3.symm⟩
        · exact absurd h2 h1
      · rintro ⟨e2, kv2, h2, h3, h4⟩
        rw [hself] at h2; cases h2; cases h3
        rw [if_pos h4.symm]; simp
    · rw [hother j hj, ← h.cmem b j hb]
      split
      · simp [hj]
      · rfl
  · intro j
    show j ∈ free' ↔ j < tail' ∧ ∃ e, ht'.entries[j]? = some e ∧ e.kv = none
    rw [hfm, h.fmem]
    by_cases hj : j = idx
    · subst hj
      simp [hself]
    · rw [hother j hj, htl j hj]; simp [hj]
  · intro j e2 kv2 h2 h3
    show _ ∧ j < tail'
    rcases hget j e2 h2 with ⟨rfl, rfl⟩ | ⟨hj, h4⟩
    · cases h3; exact ⟨rfl, htl'⟩
    · have := h.occ j e2 kv2 h4 h3
      exact ⟨this.1, (htl j hj).2 this.2⟩
  · intro j1 j2 e1 e2 kv1 kv2 h1 h2 h3 h4 h5
    rcases hget j1 e1 h1 with ⟨rfl, rfl⟩ | ⟨n1, h1'⟩ <;>
      rcases hget j2 e2 h3 with ⟨h6, h7⟩ | ⟨n2, h3'⟩
    · exact h6.symm
    · cases h2
      have := hnew kv2 (mem_kvs.2 ⟨_, _, h3', h4⟩)
      rw [lc.symm _ _ h5] at this; cases this
    · subst h6 h7; cases h4
      have := hnew kv1 (mem_kvs.2 ⟨_, _, h1', h2⟩)
      rw [h5] at this; cases this
    · exact h.uniq _ _ _ _ _ _ h1' h2 h3' h4 h5
  · have := kvs_set_length
      (e' := { next := link, hash := c.hash key, kv := some (key, v) }) he
    have h2 := h.cnt
    simp only [hkv, Option.isSome_some, Option.isSome_none, if_true] at this
    show ht.count + 1 = (kvs (ht.entries.set idx _)).length
    simp at this; omega

theorem kvs_length_prefix {es : List (Entry K V)} : ∀ {n : Nat}, n ≤ es.length →
    (∀ (i : Nat) (e : Entry K V), i < n → es[i]? = some e → e.kv.isSome) →
    (∀ (i : Nat) (e : Entry K V), n ≤ i → es[i]? = some e → e.kv = none) → (kvs es).length = n := by
  induction es with
  | nil => intro n hn _ _; simp at hn; simp [kvs, hn]
  | cons a t ih =>
    intro n hn h1 h2
    cases n with
    | zero =>
      have h3 : a.kv = none := h2 0 a (by omega) (by simp)
      have := ih (n := 0) (by omega) (fun i e hi => by omega)
        (fun i e _ he => h2 (i + 1) e (by omega) (by simpa using he))
      simp [kvs, h3] at this ⊢
      exact this
    | succ n =>
      have h3 := h1 0 a (by omega) (by simp)
      obtain ⟨kv, hkv⟩ := Option.isSome_iff_exists.1 h3
      have := ih (n := n) (by simpa using hn)
        (fun i e hi he => h1 (i + 1) e (by omega) (by simpa using he))
        (fun i e hi he => h2 (i + 1) e (by omega) (by simpa using he))
      simp [kvs, hkv] at this ⊢
      exact this

theorem RepInv.nofree {c : Cfg K} {ht : Table K V} {ch : Nat → List Nat} (h : RepInv c ht ch []) :
    ht.count = ht.tailindex := by
  rw [h.cnt]
  refine kvs_length_prefix (by rw [h.elen]; exact h.tail_le) ?_ ?_
  · intro i e hi he
    cases hk : e.kv with
    | some _ => rfl
    | none => exact absurd ((h.fmem i).2 ⟨hi, e, he, hk⟩) (by simp)
  · intro i e hi he
    cases hk : e.kv with
    | none => rfl
    | some kv => have := (h.occ i e kv he hk).2; omega

theorem init_inv (c : Cfg K) (n : Nat) : RepInv c (init n : Table K V) (fun _ => []) [] := by
  have hcap : 0 < (if n = 0 then 1 else n) := by split <;> omega
  have hrep : ∀ (i : Nat) (e : Entry K V),
      (List.replicate (if n = 0 then 1 else n) Entry.blank)[i]? = some e → e = Entry.blank := by
    intro i e he
    simp only [List.getElem?_replicate] at he
    split at he <;> simp_all
  constructor
  all_goals try simp only [init]
  · exact hcap
  · simp
  · simp
  · omega
  · intro b hb
    exact ⟨none, by simp [List.getElem?_replicate, hb], trivial⟩
  · trivial
  · simp
  · simp
  · intro b i _
    simp only [List.not_mem_nil, false_iff]
    rintro ⟨e, kv, he, hkv, _⟩
    rw [hrep i e he] at hkv; cases hkv
  · intro i; simp
  · intro i e kv he hkv
    rw [hrep i e he] at hkv; cases hkv
  · intro i j e e' kv kv' he hkv
    rw [hrep i e he] at hkv; cases hkv
  · simp [kvs, Entry.blank]

theorem init_kvs (n : Nat) : kvs (init n : Table K V).entries = [] := by
  simp [init, kvs, Entry.blank]

/-- The table under construction in `ht_setcapacity`. -/
def tableOf (cap : Nat) (s : Rehash K V) (cnt : Nat) : Table K V :=
  { capacity := cap, count := cnt, emptyindex := none, tailindex := s.tail,
    indices := s.indices, entries := s.entries }

theorem rehash_spec {c : Cfg K} (lc : Lawful c) {cap : Nat} :
    ∀ (rest : List (Entry K V)) (s : Rehash K V) (ch : Nat → List Nat) (n : Nat),
    RepInv c (tableOf cap s n) ch [] →
    n + (kvs rest).length ≤ cap →
    (∀ e ∈ rest, ∀ kv, e.kv = some kv → e.hash = c.hash kv.1) →
    (kvs rest).Pairwise (fun a b => c.keyeq a.1 b.1 = false) →
    (∀ a ∈ kvs s.entries, ∀ b ∈ kvs rest, c.keyeq a.1 b.1 = false) →
    ∃ s' ch', rest.foldlM (rehashStep cap) s = some s' ∧
      RepInv c (tableOf cap s' (n + (kvs rest).length)) ch' [] ∧
      (∀ kv, kv ∈ kvs s'.entries ↔ kv ∈ kvs s.entries ∨ kv ∈ kvs rest)
  | [], s, ch, n, h, _, _, _, _ => ⟨s, ch, by simp, by simpa [kvs] using h, by simp [kvs]⟩
  | e :: rest, s, ch, n, h, hn, hh, hp, hd => by
    cases hkv : e.kv with
    | none =>
      have hk : kvs (e :: rest) = kvs rest := by simp [kvs, hkv]
      rw [hk] at hn hp hd ⊢
      have := rehash_spec lc rest s ch n h hn (fun e he => hh e (by simp [he])) hp hd
      simpa [rehashStep, hkv] using this
    | some kv =>
      have hk : kvs (e :: rest) = kv :: kvs rest := by simp [kvs, hkv]
      rw [hk] at hn hp hd ⊢
      have hhash := hh e (by simp) kv hkv
      have htail : s.tail = n := h.nofree.symm
      have hlt : s.tail < cap := by simp at hn; omega
      have hmh : c.hash kv.1 % cap < cap := Nat.mod_lt _ h.cap_pos
      obtain ⟨link, hlink, _⟩ := h.link _ hmh
      have hel : s.entries.length = cap := h.elen
      have hesome : s.entries[s.tail]? = some s.entries[s.tail] :=
        List.getElem?_eq_getElem (by omega)
      have henone : s.entries[s.tail].kv = none := by
        cases hx : s.entries[s.tail].kv with
        | none => rfl
        | some kv2 =>
          have := (h.occ _ _ _ hesome hx).2
          simp [tableOf] at this
      have hins := insert_inv lc h (key := kv.1) (v := kv.2)
        (fun a ha => hd a ha kv (by simp)) (idx := s.tail) (e := s.entries[s.tail])
        (link := link) (empty' := none) (free' := []) (tail' := s.tail + 1)
        hesome henone hlink trivial (by simp) (by simp)
        (by intro i hi; simp only [tableOf]; omega) (by omega)
        (by show s.tail + 1 ≤ cap; omega)
      obtain ⟨hi1, hm1⟩ := hins
      have hlink' : s.indices[c.hash kv.1 % cap]? = some link := hlink
      let s1 : Rehash K V := {
        entries := s.entries.set s.tail { next := link, hash := c.hash kv.1, kv := some kv }
        indices := s.indices.set (c.hash kv.1 % cap) (some s.tail)
        tail := s.tail + 1 }
      have hstep : rehashStep cap s e = some s1 := by
        have hlt2 : s.tail < s.entries.length := by omega
        simp only [rehashStep, hkv, hhash, hlink', Option.bind_eq_bind, Option.bind_some, hlt2,
          if_true, s1]
      have hp' := List.pairwise_cons.1 hp
      obtain ⟨s', ch', hf, hinv, hmem⟩ := rehash_spec (cap := cap) lc rest s1 _ (n + 1) hi1
        (by simp at hn; omega) (fun e he => hh e (by simp [he])) hp'.2
        (by
          intro a ha b hb
          rcases (hm1 a).1 ha with h1 | ha
          · subst h1; exact hp'.1 b hb
          · exact hd a ha b (by simp [hb]))
      refine ⟨s', ch', ?_, ?_, ?_⟩
      · simp [List.foldlM_cons, hstep, hf]
      · have : n + (kv :: kvs rest).length = n + 1 + (kvs rest).length := by simp; omega
        rw [this]; exact hinv
      · intro kv2
        rw [hmem]
        have := hm1 kv2
        have h3 : kv2 ∈ kvs s1.entries ↔ kv2 = kv ∨ kv2 ∈ kvs s.entries := this
        rw [h3]
        simp only [List.mem_cons]
        constructor
        · rintro ((h | h) | h)
          · exact Or.inr (Or.inl h)
          · exact Or.inl h
          · exact Or.inr (Or.inr h)
        · rintro (h | h | h)
          · exact Or.inl (Or.inr h)
          · exact Or.inl (Or.inl h)
          · exact Or.inr h

theorem RepInv.pairwise {c : Cfg K} {ht : Table K V} {ch : Nat → List Nat} {fr : List Nat} (h : RepInv c ht ch fr) :
    (kvs ht.entries).Pairwise (fun a b => c.keyeq a.1 b.1 = false) := by
  unfold kvs
  rw [List.pairwise_filterMap, List.pairwise_iff_getElem]
  intro i j hi hj hij a ha b hb
  cases hk : c.keyeq a.1 b.1 with
  | false => rfl
  | true =>
    have := h.uniq i j _ _ a b (List.getElem?_eq_getElem hi) ha (List.getElem?_eq_getElem hj) hb hk
    omega

theorem setCapacity_spec {c : Cfg K} (lc : Lawful c) {ht : Table K V} {ch : Nat → List Nat} {fr : List Nat}
    (h : RepInv c ht ch fr) (n : Nat) : ∃ ht' ch', setCapacity ht n = some ht' ∧
      RepInv c ht' ch' [] ∧ (∀ kv, kv ∈ kvs ht'.entries ↔ kv ∈ kvs ht.entries) ∧
      ht'.count = ht.count ∧ n ≤ ht'.capacity := by
  unfold setCapacity
  generalize hc1 : (if n = 0 then 1 else n) = n1
  generalize hc2 : (if n1 < ht.count then ht.count else n1) = cap
  have hn1 : 0 < n1 ∧ n ≤ n1 := by split at hc1 <;> omega
  have hcap : 0 < cap ∧ n1 ≤ cap ∧ ht.count ≤ cap := by split at hc2 <;> omega
  have h0 := init_inv (K := K) (V := V) c cap
  have h0' : RepInv c (tableOf cap ⟨List.replicate cap none,
      List.replicate cap (Entry.blank : Entry K V), 0⟩ 0) (fun _ => []) [] := by
    have hne : cap ≠ 0 := by omega
    simpa [init, tableOf, hne] using h0
  obtain ⟨s', ch', hf, hinv, hmem⟩ := rehash_spec lc ht.entries _ _ 0 h0'
    (by rw [← h.cnt]; omega)
    (fun e he kv hkv => by
      obtain ⟨i, hi⟩ := List.mem_iff_getElem?.1 he
      exact (h.occ i e kv hi hkv).1)
    h.pairwise (by simp [kvs, Entry.blank])
  refine ⟨tableOf cap s' ht.count, ch', ?_, ?_, ?_, ?_, ?_⟩
  · simp only [hc2, hf, tableOf, Option.bind_eq_bind, Option.bind_some]
  · have : 0 + (kvs ht.entries).length = ht.count := by rw [h.cnt]; omega
    rw [this] at hinv
    exact hinv
  · intro kv
    have := hmem kv
    simp only [kvs, List.filterMap_replicate, Entry.blank] at this
    simpa [kvs, tableOf] using this
  · rfl
  · show n ≤ cap; omega

theorem ensureCapacity_spec {c : Cfg K} (lc : Lawful c) {ht : Table K V} {ch : Nat → List Nat} {fr : List Nat}
    (h : RepInv c ht ch fr) (n : Nat) : ∃ ht' ch' fr', ensureCapacity ht n = some ht' ∧
      RepInv c ht' ch' fr' ∧ (∀ kv, kv ∈ kvs ht'.entries ↔ kv ∈ kvs ht.entries) ∧
      ht'.count = ht.count ∧ n ≤ ht'.capacity ∧ (fr = [] → fr' = []) := by
  unfold ensureCapacity
  by_cases hn : n ≤ ht.capacity
  · exact ⟨ht, ch, fr, by simp [hn], h, by simp, rfl, hn, id⟩
  · simp only [hn, if_false]
    obtain ⟨ht', ch', h1, h2, h3, h4, h5⟩ := setCapacity_spec lc h
      (if (if n < ht.capacity + ht.capacity / 2 then ht.capacity + ht.capacity / 2 else n) <
        ht.capacity + 6 then ht.capacity + 6 else
        (if n < ht.capacity + ht.capacity / 2 then ht.capacity + ht.capacity / 2 else n))
    refine ⟨ht', ch', [], h1, h2, h3, h4, ?_, fun _ => rfl⟩
    split at h5 <;> split at h5 <;> omega

theorem abs_congr {c : Cfg K} {ht ht' : Table K V} {m : FMap K V}
    (h : ∀ kv, kv ∈ kvs ht'.entries ↔ kv ∈ kvs ht.entries) (ha : Abs c ht m) : Abs c ht' m := by
  intro k kv; rw [ha k kv, h]

theorem abs_insert {c : Cfg K} (lc : Lawful c) {ht ht' : Table K V} {m : FMap K V} {key : K} {v : V}
    (hnew : ∀ kv ∈ kvs ht.entries, c.keyeq kv.1 key = false)
    (hm : ∀ kv, kv ∈ kvs ht'.entries ↔ kv = (key, v) ∨ kv ∈ kvs ht.entries)
    (ha : Abs c ht m) : Abs c ht' (step c.keyeq m (.set key v)).1 := by
  intro k kv
  simp only [step]
  rw [hm]
  by_cases hk : c.keyeq key k = true
  · simp only [hk, if_true]
    constructor
    · rintro ⟨⟩; exact ⟨Or.inl rfl, hk⟩
    · rintro ⟨rfl | h1, h2⟩
      · rfl
      · have := hnew kv h1
        rw [lc.trans _ _ _ h2 (lc.symm _ _ hk)] at this; cases this
  · simp only [hk]
    rw [if_neg (by simp), ha k kv]
    constructor
    · rintro ⟨h1, h2⟩; exact ⟨Or.inr h1, h2⟩
    · rintro ⟨rfl | h1, h2⟩
      · exact absurd h2 hk
      · exact ⟨h1, h2⟩

theorem set_spec {c : Cfg K} (lc : Lawful c) {ht : Table K V} {ch : Nat → List Nat} {fr : List Nat} {m : FMap K V} (h : RepInv c ht ch fr)
    (ha : Abs c ht m) (key : K) (v : V) : ∃ ht' ch' fr',
      set c ht key v = some (ht', m key) ∧ RepInv c ht' ch' fr' ∧
      Abs c ht' (step c.keyeq m (.set key v)).1 := by
  obtain ⟨p, r, hp, hr, h1, h2⟩ := h.find lc key
  unfold set
  cases r with
  | some i =>
    obtain ⟨e, kv, he, hkv, hh, hk⟩ := h1 i rfl
    have hm : m key = some kv := (ha key kv).2 ⟨mem_kvs.2 ⟨i, e, he, hkv⟩, hk⟩
    obtain ⟨hi, hab⟩ := set_replace lc h ha (v := v) he hkv hk
    exact ⟨_, ch, fr, by simp [hp, hr, he, hkv, hm], hi, hab⟩
  | none =>
    have hnew := h2 rfl
    have hm : m key = none := by
      cases hm : m key with
      | none => rfl
      | some kv =>
        have := (ha key kv).1 hm
        have h3 := hnew kv this.1
        rw [h3] at this; cases this.2
    cases hem : ht.emptyindex with
    | some i =>
      have hfl := h.flink
      rw [hem] at hfl
      cases fr with
      | nil => exact hfl.elim
      | cons j rest =>
        obtain ⟨rfl, e, he, hl⟩ := hfl
        have hfree := (h.fmem i).1 (by simp)
        obtain ⟨htl, e2, he2, hkv⟩ := hfree
        rw [he] at he2; cases he2
        have hnd := List.nodup_cons.1 h.fnodup
        have hlt := (List.getElem?_eq_some_iff.1 he).1
        obtain ⟨hi, hmem⟩ := insert_inv lc h (key := key) (v := v) hnew (link := p)
          (empty' := e.next) (free' := rest) (tail' := ht.tailindex) he hkv hp hl hnd.2
          (by
            intro x
            simp only [List.mem_cons]
            constructor
            · intro hx; exact ⟨fun h => hnd.1 (h ▸ hx), Or.inr hx⟩
            · rintro ⟨h1, rfl | h2⟩
              · exact absurd rfl h1
              · exact h2)
          (by simp) htl h.tail_le
        refine ⟨_, _, rest, ?_, hi, abs_insert lc hnew hmem ha⟩
        have he2 : ht.entries[i] = e := (List.getElem?_eq_some_iff.1 he).2
        simp [hp, hr, he, hlt, hm, he2]
    | none =>
      have hfl := h.flink
      rw [hem] at hfl
      cases fr with
      | cons j rest => exact hfl.elim
      | nil =>
        obtain ⟨ht1, ch1, fr1, hec, hi1, hmem1, hcnt, hcap, hfr⟩ :=
          ensureCapacity_spec lc h (ht.count + 1)
        have hfr1 := hfr rfl
        subst hfr1
        have hnew1 : ∀ kv ∈ kvs ht1.entries, c.keyeq kv.1 key = false :=
          fun kv hkv => hnew kv ((hmem1 kv).1 hkv)
        have htail := hi1.nofree
        have hlt : ht1.tailindex < ht1.entries.length := by rw [hi1.elen]; omega
        have hmh : c.hash key % ht1.capacity < ht1.capacity := Nat.mod_lt _ hi1.cap_pos
        obtain ⟨link, hlink, _⟩ := hi1.link _ hmh
        have he : ht1.entries[ht1.tailindex]? = some ht1.entries[ht1.tailindex] :=
          List.getElem?_eq_getElem hlt
        have hkv : ht1.entries[ht1.tailindex].kv = none := by
          cases hx : ht1.entries[ht1.tailindex].kv with
          | none => rfl
          | some kv2 =>
            have := (hi1.occ _ _ _ he hx).2
            omega
        have hem1 : ht1.emptyindex = none := by
          have := hi1.flink
          cases hx : ht1.emptyindex with
          | none => rfl
          | some _ => rw [hx] at this; exact this.elim
        obtain ⟨hi, hmem⟩ := insert_inv lc hi1 (key := key) (v := v) hnew1 (link := link)
          (empty' := ht1.emptyindex) (free' := []) (tail' := ht1.tailindex + 1) he hkv hlink
          (by rw [hem1]; trivial) (by simp) (by simp) (by intro i hi; omega) (by omega)
          (by rw [← hi1.elen]; omega)
        refine ⟨_, _, [], ?_, hi, abs_insert lc hnew1 hmem (abs_congr hmem1 ha)⟩
        simp [hp, hr, hec, hlink, hlt, hm]

theorem clear_spec {c : Cfg K} {ht : Table K V} {ch : Nat → List Nat} {fr : List Nat} {m : FMap K V} (h : RepInv c ht ch fr)
    (_ha : Abs c ht m) : ∃ ch' fr', RepInv c (clear ht).1 ch' fr' ∧
      Abs c (clear ht).1 (fun _ => none) ∧ (clear ht).2 = kvs ht.entries := by
  unfold clear
  by_cases hc : ht.count = 0
  · have hk : kvs ht.entries = [] := List.eq_nil_of_length_eq_zero (by rw [← h.cnt]; exact hc)
    refine ⟨ch, fr, by simpa [hc] using h, ?_, by simp [hc, hk]⟩
    intro k kv
    simp [hc, hk]
  · have hkv0 : kvs (ht.entries.map (fun e : Entry K V => ({ e with kv := none } : Entry K V))) = [] := by
      simp [kvs, List.filterMap_map, Function.comp_def]
    have hnone : ∀ (i : Nat) (e : Entry K V),
        (ht.entries.map (fun e : Entry K V => ({ e with kv := none } : Entry K V)))[i]? = some e →
        e.kv = none := by
      intro i e he
      simp only [List.getElem?_map, Option.map_eq_some_iff] at he
      obtain ⟨e', _, rfl⟩ := he; rfl
    refine ⟨fun _ => [], [], ?_, ?_, by simp [hc, kvs]⟩
    · simp only [hc, if_false]
      constructor
      all_goals try simp only
      · exact h.cap_pos
      · simpa using h.ilen
      · simpa using h.elen
      · omega
      · intro b hb
        have : b < ht.indices.length := by rw [h.ilen]; exact hb
        exact ⟨none, by simp [this], trivial⟩
      · trivial
      · simp
      · simp
      · intro b i _
        simp only [List.not_mem_nil, false_iff]
        rintro ⟨e, kv, he, hkv, _⟩
        rw [hnone i e he] at hkv; cases hkv
      · intro i; simp
      · intro i e kv he hkv
        rw [hnone i e he] at hkv; cases hkv
      · intro i j e e' kv kv' he hkv
        rw [hnone i e he] at hkv; cases hkv
      · rw [hkv0]; rfl
    · intro k kv
      simp [hc, hkv0]

theorem kvs_congr {es es' : List (Entry K V)}
    (h : ∀ x : Nat, (es'[x]?).map Entry.kv = (es[x]?).map Entry.kv) : kvs es' = kvs es := by
  have h1 : ∀ l : List (Entry K V), kvs l = (l.map Entry.kv).filterMap id := by
    intro l; simp [kvs, List.filterMap_map, Function.comp_def]
  rw [h1, h1]
  congr 1
  apply List.ext_getElem?
  intro x
  simpa using h x

theorem remove_inv {c : Cfg K} {ht : Table K V} {ch ch' : Nat → List Nat} {fr : List Nat}
    (h : RepInv c ht ch fr) {es' : List (Entry K V)} {ind' : List (Option Nat)} {i : Nat}
    {e e' : Entry K V} {kv : K × V} (he : ht.entries[i]? = some e) (hkv : e.kv = some kv)
    (hil : ind'.length = ht.indices.length)
    (hi : es'[i]? = some e') (hi1 : e'.kv = none) (hi2 : e'.next = ht.emptyindex)
    (ho : ∀ x : Nat, x ≠ i → (es'[x]?).map (fun e => (e.hash, e.kv)) =
      (ht.entries[x]?).map (fun e => (e.hash, e.kv)))
    (hlinks : ∀ b, b < ht.capacity → ∃ p, ind'[b]? = some p ∧ Linked es' p (ch' b))
    (hch : ∀ b, b < ht.capacity → ch' b = (ch b).erase i)
    (hfl : Linked es' ht.emptyindex fr) :
    RepInv c { ht with entries := es', indices := ind', emptyindex := some i,
                       count := ht.count - 1 } ch' (i :: fr) ∧
    ∀ kv', kv' ∈ kvs es' ↔
      ∃ (j : Nat) (e2 : Entry K V), j ≠ i ∧ ht.entries[j]? = some e2 ∧ e2.kv = some kv' := by
  have hlt := (List.getElem?_eq_some_iff.1 he).1
  have hlt' := (List.getElem?_eq_some_iff.1 hi).1
  have hlen : es'.length = ht.entries.length := by
    have h1 : ∀ x : Nat, x ≠ i → (x < es'.length ↔ x < ht.entries.length) := by
      intro x hx
      have := ho x hx
      have := congrArg Option.isSome this
      simp only [Option.isSome_map] at this
      by_cases g1 : x < es'.length <;> by_cases g2 : x < ht.entries.length <;>
        simp [g1, g2] at this ⊢
    by_cases h2 : es'.length < ht.entries.length
    · have := h1 es'.length (by omega); omega
    · by_cases h3 : ht.entries.length < es'.length
      · have := h1 ht.entries.length (by omega); omega
      · omega
  have hback : ∀ (x : Nat) (e2 : Entry K V), x ≠ i → es'[x]? = some e2 →
      ∃ e3, ht.entries[x]? = some e3 ∧ e3.hash = e2.hash ∧ e3.kv = e2.kv := by
    intro x e2 hx h2
    have := ho x hx
    rw [h2] at this
    simp only [Option.map_some] at this
    obtain ⟨e3, h3, h4⟩ := Option.map_eq_some_iff.1 this.symm
    simp only [Prod.mk.injEq] at h4
    exact ⟨e3, h3, h4.1, h4.2⟩
  have hforth : ∀ (x : Nat) (e2 : Entry K V), x ≠ i → ht.entries[x]? = some e2 →
      ∃ e3, es'[x]? = some e3 ∧ e3.hash = e2.hash ∧ e3.kv = e2.kv := by
    intro x e2 hx h2
    have := ho x hx
    rw [h2] at this
    simp only [Option.map_some] at this
    obtain ⟨e3, h3, h4⟩ := Option.map_eq_some_iff.1 this
    simp only [Prod.mk.injEq] at h4
    exact ⟨e3, h3, h4.1, h4.2⟩
  have hocc : ∀ (x : Nat) (e2 : Entry K V) (kv2 : K × V), es'[x]? = some e2 → e2.kv = some kv2 →
      x ≠ i := by
    rintro x e2 kv2 h2 h3 rfl
    rw [hi] at h2; cases h2; rw [hi1] at h3; cases h3
  constructor
  · constructor
    all_goals try simp only
    · exact h.cap_pos
    · rw [hil]; exact h.ilen
    · rw [hlen]; exact h.elen
    · exact h.tail_le
    · exact hlinks
    · exact ⟨rfl, e', hi, by rw [hi2]; exact hfl⟩
    · intro b hb
      rw [hch b hb]; exact (h.cnodup b hb).erase i
    · refine List.nodup_cons.2 ⟨fun hx => ?_, h.fnodup⟩
      obtain ⟨_, e2, h2, h3⟩ := (h.fmem i).1 hx
      rw [he] at h2; cases h2; rw [hkv] at h3; cases h3
    · intro b x hb
      rw [hch b hb, (h.cnodup b hb).mem_erase_iff, h.cmem b x hb]
      constructor
      · rintro ⟨hx, e2, kv2, h2, h3, h4⟩
        obtain ⟨e3, h5, h6, h7⟩ := hforth x e2 hx h2
        exact ⟨e3, kv2, h5, by rw [h7]; exact h3, h4⟩
      · rintro ⟨e2, kv2, h2, h3, h4⟩
        have hx := hocc x e2 kv2 h2 h3
        obtain ⟨e3, h5, h6, h7⟩ := hback x e2 hx h2
        exact ⟨hx, e3, kv2, h5, by rw [h7]; exact h3, h4⟩
    · intro x
      rw [List.mem_cons, h.fmem]
      by_cases hx : x = i
      · subst hx
        have := (h.occ _ _ _ he hkv).2
        simp [this, hi, hi1]
      · simp only [hx, false_or]
        constructor
        · rintro ⟨h1, e2, h2, h3⟩
          obtain ⟨e3, h5, h6, h7⟩ := hforth x e2 hx h2
          exact ⟨h1, e3, h5, by rw [h7]; exact h3⟩
        · rintro ⟨h1, e2, h2, h3⟩
          obtain ⟨e3, h5, h6, h7⟩ := hback x e2 hx h2
          exact ⟨h1, e3, h5, by rw [h7]; exact h3⟩
    · intro x e2 kv2 h2 h3
      have hx := hocc x e2 kv2 h2 h3
      obtain ⟨e3, h5, h6, h7⟩ := hback x e2 hx h2
      have := h.occ x e3 kv2 h5 (by rw [h7]; exact h3)
      rw [h6] at this; exact this
    · intro x y e1 e2 kv1 kv2 h1 h2 h3 h4 h5
      obtain ⟨e3, g1, g2, g3⟩ := hback x e1 (hocc _ _ _ h1 h2) h1
      obtain ⟨e4, g4, g5, g6⟩ := hback y e2 (hocc _ _ _ h3 h4) h3
      exact h.uniq _ _ _ _ _ _ g1 (by rw [g3]; exact h2) g4 (by rw [g6]; exact h4) h5
    · have h1 : kvs es' = kvs (ht.entries.set i { e with kv := none }) := by
        refine kvs_congr (fun x => ?_)
        by_cases hx : x = i
        · subst hx; simp [hi, hi1, hlt]
        · rw [List.getElem?_set_ne (Ne.symm hx)]
          have := congrArg (Option.map Prod.snd) (ho x hx)
          simpa [Option.map_map, Function.comp_def] using this
      have h2 := kvs_set_length (e' := { e with kv := none }) he
      rw [← h1] at h2
      have h3 := h.cnt
      simp [hkv] at h2
      omega
  · intro kv'
    rw [mem_kvs]
    constructor
    · rintro ⟨x, e2, h2, h3⟩
      have hx := hocc x e2 kv' h2 h3
      obtain ⟨e3, h5, h6, h7⟩ := hback x e2 hx h2
      exact ⟨x, e3, hx, h5, by rw [h7]; exact h3⟩
    · rintro ⟨x, e2, hx, h2, h3⟩
      obtain ⟨e3, h5, h6, h7⟩ := hforth x e2 hx h2
      exact ⟨x, e3, h5, by rw [h7]; exact h3⟩

/-- Unlinking the successor of `j` in a chain. -/
theorem Linked.unlink {es : List (Entry K V)} {i j : Nat} {r : List Nat} {e ej : Entry K V}
    (he : es[i]? = some e) (hj : es[j]? = some ej) :
    ∀ {pre : List Nat} {p : Option Nat}, Linked es p (pre ++ j :: i :: r) →
      (pre ++ j :: i :: r).Nodup → Linked (es.set j { ej with next := e.next }) p (pre ++ j :: r)
  | [], none, h, _ => h.elim
  | [], some p, h, hnd => by
    obtain ⟨rfl, e1, h1, h2⟩ := h
    rw [hj] at h1; cases h1
    have hlt := (List.getElem?_eq_some_iff.1 hj).1
    refine ⟨rfl, { ej with next := e.next }, by simp [hlt], ?_⟩
    cases hn : ej.next with
    | none => rw [hn] at h2; exact h2.elim
    | some q =>
      rw [hn] at h2
      obtain ⟨rfl, e2, h3, h4⟩ := h2
      rw [he] at h3; cases h3
      refine Linked.set ?_ h4
      simp at hnd
      exact hnd.1.2
  | x :: pre, none, h, _ => h.elim
  | x :: pre, some p, h, hnd => by
    obtain ⟨rfl, e1, h1, h2⟩ := h
    have hnd' := List.nodup_cons.1 hnd
    have hpj : p ≠ j := by rintro rfl; exact hnd'.1 (by simp)
    refine ⟨rfl, e1, by rw [List.getElem?_set_ne (Ne.symm hpj)]; exact h1, ?_⟩
    exact Linked.unlink he hj h2 hnd'.2

theorem removeLoop_spec {c : Cfg K} (lc : Lawful c) {ht : Table K V} {ch : Nat → List Nat}
    {fr : List Nat} {m : FMap K V} (h : RepInv c ht ch fr) (ha : Abs c ht m) (key : K) :
    ∀ (suf pre : List Nat) (p : Link) (q : Option Nat) (fuel : Nat),
      ch (c.hash key % ht.capacity) = pre ++ suf →
      p.read ht = some q → Linked ht.entries q suf → suf.length < fuel →
      (p = .bucket (c.hash key % ht.capacity) ∧ pre = [] ∨
        ∃ pre' j, p = .next j ∧ pre = pre' ++ [j]) →
      (∀ i ∈ pre, ∀ (e : Entry K V) (kv : K × V), ht.entries[i]? = some e → e.kv = some kv →
        c.keyeq kv.1 key = false) →
      ∃ ht' ch' fr', removeLoop c (c.hash key) key fuel ht p = some (ht', m key) ∧
        RepInv c ht' ch' fr' ∧ Abs c ht' (step c.keyeq m (.remove key)).1
  | [], pre, p, q, 0, _, _, _, hf, _, _ => by simp at hf
  | i :: suf, pre, p, q, 0, _, _, _, hf, _, _ => by simp at hf
  | [], pre, p, some q, fuel + 1, hc, hr, hl, hf, hp, hpre => hl.elim
  | [], pre, p, none, fuel + 1, hc, hr, hl, hf, hp, hpre => by
    have hb := Nat.mod_lt (c.hash key) h.cap_pos
    have hnot : ∀ kv ∈ kvs ht.entries, c.keyeq kv.1 key = false := by
      intro kv hkv
      cases hk : c.keyeq kv.1 key with
      | false => rfl
      | true =>
        obtain ⟨x, e, he, hekv⟩ := mem_kvs.1 hkv
        have hx : x ∈ ch (c.hash key % ht.capacity) :=
          (h.cmem _ x hb).2 ⟨e, kv, he, hekv, by rw [lc.hash _ _ hk]⟩
        rw [hc, List.append_nil] at hx
        rw [← hk]; exact hpre x hx e kv he hekv
    have hm : m key = none := by
      cases hm : m key with
      | none => rfl
      | some kv =>
        have := (ha key kv).1 hm
        rw [hnot kv this.1] at this; cases this.2
    refine ⟨ht, ch, fr, by simp [removeLoop, hr, hm], h, ?_⟩
    intro k kv
    simp only [step]
    by_cases hk : c.keyeq key k = true
    · simp only [hk, if_true]
      constructor
      · intro h; cases h
      · rintro ⟨h1, h2⟩
        have := hnot kv h1
        rw [lc.trans _ _ _ h2 (lc.symm _ _ hk)] at this; cases this
    · rw [if_neg hk]; exact ha k kv
  | i :: suf, pre, p, none, fuel + 1, hc, hr, hl, hf, hp, hpre => hl.elim
  | i :: suf, pre, p, some q, fuel + 1, hc, hr, hl, hf, hp, hpre => by
    obtain ⟨rfl, e, he, hl⟩ := hl
    have hb := Nat.mod_lt (c.hash key) h.cap_pos
    have hq : q ∈ ch (c.hash key % ht.capacity) := by rw [hc]; simp
    obtain ⟨e2, kv, he2, hkv, hkh⟩ := (h.cmem _ q hb).1 hq
    rw [he] at he2; cases he2
    have hhash := (h.occ _ _ _ he hkv).1
    by_cases hk : c.keyeq kv.1 key = true
    · -- found
      have hh : e.hash = c.hash key := hhash.trans (lc.hash _ _ hk)
      have hm : m key = some kv := (ha key kv).2 ⟨mem_kvs.2 ⟨q, e, he, hkv⟩, hk⟩
      have hnd := h.cnodup _ hb
      rw [hc] at hnd
      have hqpre : q ∉ pre := by
        intro hx
        have := (List.nodup_append.1 hnd).2.2 q hx q (by simp)
        exact this rfl
      have hqsuf : q ∉ suf := by
        have := (List.nodup_append.1 hnd).2.1
        exact (List.nodup_cons.1 this).1
      have hqfr : q ∉ fr := by
        intro hx
        obtain ⟨_, e2, h2, h3⟩ := (h.fmem q).1 hx
        rw [he] at h2; cases h2; rw [hkv] at h3; cases h3
      have habs : ∀ ht' : Table K V, (∀ kv', kv' ∈ kvs ht'.entries ↔
          ∃ (j : Nat) (e2 : Entry K V), j ≠ q ∧ ht.entries[j]? = some e2 ∧ e2.kv = some kv') →
          Abs c ht' (step c.keyeq m (.remove key)).1 := by
        intro ht' hmem k kv'
        simp only [step]
        rw [hmem]
        by_cases hkk : c.keyeq key k = true
        · simp only [hkk, if_true]
          constructor
          · intro h; cases h
          · rintro ⟨⟨j, e2, hj, h2, h3⟩, h4⟩
            exact absurd (h.uniq _ _ _ _ _ _ h2 h3 he hkv
              (lc.trans _ _ _ h4 (lc.symm _ _ (lc.trans _ _ _ hk hkk)))) hj
        · rw [if_neg hkk, ha k kv', mem_kvs]
          constructor
          · rintro ⟨⟨j, e2, h2, h3⟩, h4⟩
            refine ⟨⟨j, e2, ?_, h2, h3⟩, h4⟩
            rintro rfl
            rw [he] at h2; cases h2; rw [hkv] at h3; cases h3
            exact hkk (lc.trans _ _ _ (lc.symm _ _ hk) h4)
          · rintro ⟨⟨j, e2, hj, h2, h3⟩, h4⟩
            exact ⟨⟨j, e2, h2, h3⟩, h4⟩
      have hqlt := (List.getElem?_eq_some_iff.1 he).1
      have hq2 : ht.entries[q] = e := (List.getElem?_eq_some_iff.1 he).2
      have herase : (ch (c.hash key % ht.capacity)).erase q = pre ++ suf := by
        rw [hc, List.erase_append_right _ hqpre]; simp
      have hother : ∀ b, b < ht.capacity → b ≠ c.hash key % ht.capacity → q ∉ ch b := by
        intro b hb2 hne hx
        obtain ⟨e2, kv2, h2, h3, h4⟩ := (h.cmem b q hb2).1 hx
        rw [he] at h2; cases h2; rw [hkv] at h3; cases h3
        rw [lc.hash _ _ hk] at h4
        exact hne h4.symm
      rcases hp with ⟨rfl, rfl⟩ | ⟨pre', j, rfl, rfl⟩
      · -- head of the chain
        have hrem := remove_inv h (ch' := fun b => (ch b).erase q)
          (es' := ht.entries.set q { e with next := ht.emptyindex, kv := none })
          (ind' := ht.indices.set (c.hash key % ht.capacity) e.next)
          (e' := { e with next := ht.emptyindex, kv := none }) he hkv (by simp) (by simp [hqlt])
          rfl rfl (fun x hx => by rw [List.getElem?_set_ne (Ne.symm hx)])
          (by
            intro b hb2
            by_cases hbe : b = c.hash key % ht.capacity
            · subst hbe
              refine ⟨e.next, by simp [h.ilen, hb2], ?_⟩
              rw [herase]
              exact Linked.set hqsuf hl
            · obtain ⟨p, hp1, hp2⟩ := h.link b hb2
              refine ⟨p, by rw [List.getElem?_set_ne (Ne.symm hbe)]; exact hp1, ?_⟩
              rw [List.erase_of_not_mem (hother b hb2 hbe)]
              exact hp2.set (hother b hb2 hbe))
          (fun _ _ => rfl) (h.flink.set hqfr)
        refine ⟨_, _, _, ?_, hrem.1, habs _ hrem.2⟩
        simp [removeLoop, hr, he, hh, hkv, hk, Link.write, hm, hqlt, hq2]
      · -- after entry j
        have hjq : j ≠ q := fun hx => hqpre (by simp [hx])
        have hjmem : j ∈ ch (c.hash key % ht.capacity) := by rw [hc]; simp
        obtain ⟨ej, kvj, hej, _, _⟩ := (h.cmem _ j hb).1 hjmem
        have hjfr : j ∉ fr := by
          intro hx
          obtain ⟨_, e2, h2, h3⟩ := (h.fmem j).1 hx
          obtain ⟨e3, kv3, h4, h5, _⟩ := (h.cmem _ j hb).1 hjmem
          rw [h4] at h2; cases h2; rw [h5] at h3; cases h3
        have hjother : ∀ b, b < ht.capacity → b ≠ c.hash key % ht.capacity → j ∉ ch b := by
          intro b hb2 hne hx
          obtain ⟨e2, kv2, h2, h3, h4⟩ := (h.cmem b j hb2).1 hx
          obtain ⟨e3, kv3, h5, h6, h7⟩ := (h.cmem _ j hb).1 hjmem
          rw [h2] at h5; cases h5; rw [h3] at h6; cases h6
          exact hne (h4.symm.trans h7)
        have hjlt := (List.getElem?_eq_some_iff.1 hej).1
        have hj2 : ht.entries[j] = ej := (List.getElem?_eq_some_iff.1 hej).2
        have hrem := remove_inv h (ch' := fun b => (ch b).erase q)
          (es' := (ht.entries.set j { ej with next := e.next }).set q
            { e with next := ht.emptyindex, kv := none })
          (ind' := ht.indices)
          (e' := { e with next := ht.emptyindex, kv := none }) he hkv rfl (by simp [hqlt])
          rfl rfl
          (fun x hx => by
            rw [List.getElem?_set_ne (Ne.symm hx)]
            by_cases hxj : x = j
            · subst hxj; simp [hjlt, hj2]
            · rw [List.getElem?_set_ne (Ne.symm hxj)])
          (by
            intro b hb2
            obtain ⟨p, hp1, hp2⟩ := h.link b hb2
            refine ⟨p, hp1, ?_⟩
            by_cases hbe : b = c.hash key % ht.capacity
            · subst hbe
              rw [herase]
              rw [hc] at hp2
              simp only [List.append_assoc, List.singleton_append] at hp2 hnd
              have := Linked.unlink he hej hp2 hnd
              refine Linked.set ?_ (by simpa using this)
              simp only [List.mem_append, List.mem_singleton, not_or] at hqpre ⊢
              exact ⟨hqpre, hqsuf⟩
            · rw [List.erase_of_not_mem (hother b hb2 hbe)]
              exact (hp2.set (hjother b hb2 hbe)).set (hother b hb2 hbe))
          (fun _ _ => rfl) ((h.flink.set hjfr).set hqfr)
        refine ⟨_, _, _, ?_, hrem.1, habs _ hrem.2⟩
        simp [removeLoop, hr, he, hh, hkv, hk, Link.write, hm, hej, hqlt, hq2, hjq]
    · -- not this entry
      have hstep : removeLoop c (c.hash key) key (fuel + 1) ht p =
          removeLoop c (c.hash key) key fuel ht (.next q) := by
        conv => lhs; unfold removeLoop
        by_cases hh : e.hash = c.hash key <;> simp [hr, he, hkv, hh, hk]
      rw [hstep]
      refine removeLoop_spec lc h ha key suf (pre ++ [q]) (.next q) e.next fuel (by simp [hc])
        (by simp [Link.read, he]) hl (by simp at hf; omega) (Or.inr ⟨pre, q, rfl, rfl⟩) ?_
      intro x hx e2 kv2 h2 h3
      rcases List.mem_append.1 hx with hx | hx
      · exact hpre x hx e2 kv2 h2 h3
      · simp at hx; subst hx
        rw [he] at h2; cases h2; rw [hkv] at h3; cases h3
        simpa using hk

theorem remove_spec {c : Cfg K} (lc : Lawful c) {ht : Table K V} {ch : Nat → List Nat}
    {fr : List Nat} {m : FMap K V} (h : RepInv c ht ch fr) (ha : Abs c ht m) (key : K) :
    ∃ ht' ch' fr', remove c ht key = some (ht', m key) ∧
        RepInv c ht' ch' fr' ∧ Abs c ht' (step c.keyeq m (.remove key)).1 := by
  have hb := Nat.mod_lt (c.hash key) h.cap_pos
  obtain ⟨p, hp, hl⟩ := h.link _ hb
  have := h.chain_len hb
  exact removeLoop_spec lc h ha key _ [] (.bucket (c.hash key % ht.capacity)) p _ (by simp)
    (by simpa [Link.read] using hp) hl (by omega) (Or.inl ⟨rfl, rfl⟩) (by simp)

theorem nextEntry_spec {ht : Table K V} (hl : ht.entries.length = ht.capacity) (i : Nat) :
    nextEntry ht i = some (match kvs (ht.entries.drop i) with
      | [] => (none, max i ht.capacity)
      | kv :: _ => (some kv, (nextEntry ht i).get!.2)) ∧
    (∀ kv rest, kvs (ht.entries.drop i) = kv :: rest →
      kvs (ht.entries.drop (nextEntry ht i).get!.2) = rest) := by
  fun_induction nextEntry ht i with
  | case1 i hi hn => 
    have := List.getElem?_eq_none_iff.1 hn; omega
  | case2 i hi e he kv hkv =>
    have hd : ht.entries.drop i = e :: ht.entries.drop (i + 1) := by
      obtain ⟨h1, rfl⟩ := List.getElem?_eq_some_iff.1 he
      simp
    have : kvs (ht.entries.drop i) = kv :: kvs (ht.entries.drop (i + 1)) := by
      rw [hd]; simp [kvs, hkv]
    rw [this]
    simp
  | case3 i hi e he hkv ih =>
    have hd : ht.entries.drop i = e :: ht.entries.drop (i + 1) := by
      obtain ⟨h1, rfl⟩ := List.getElem?_eq_some_iff.1 he
      simp
    have h3 : kvs (ht.entries.drop i) = kvs (ht.entries.drop (i + 1)) := by
      rw [hd]; simp [kvs, hkv]
    have hmax : max (i + 1) ht.capacity = max i ht.capacity := by omega
    rw [h3]
    rw [hmax] at ih
    exact ih
  | case4 i hi =>
    have : ht.entries.drop i = [] := by simp; omega
    have hm : max i ht.capacity = i := by omega
    simp [this, kvs, hm]

theorem iterate_spec {ht : Table K V} (hl : ht.entries.length = ht.capacity) :
    ∀ (fuel i : Nat), (kvs (ht.entries.drop i)).length < fuel →
      iterate ht fuel i = some (kvs (ht.entries.drop i))
  | 0, i, h => by simp at h
  | fuel + 1, i, h => by
    obtain ⟨h1, h2⟩ := nextEntry_spec hl i
    unfold iterate
    cases hk : kvs (ht.entries.drop i) with
    | nil => rw [hk] at h1; simp [h1]
    | cons kv rest =>
      rw [hk] at h1 h
      have h3 := h2 kv rest hk
      have ih := iterate_spec hl fuel (nextEntry ht i).get!.2 (by rw [h3]; simp at h; omega)
      rw [h3] at ih
      simp only at h1
      rw [h1]
      simp [ih]

end Yash.HashTable
