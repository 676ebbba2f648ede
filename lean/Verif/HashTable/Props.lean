import Verif.HashTable.Lemmas
/-!
# Properties C01 and C02 of the hash table

`perform` sends one client request to the modelled C function; `runAll` a whole history.
`none` anywhere would mean undefined behaviour or an endless loop in C.
-/
set_option autoImplicit false

namespace Yash.HashTable

open Spec

variable {K V : Type}

/-- Dispatches a request to the modelled function. -/
def perform (c : Cfg K) (ht : Table K V) : Op K V → Option (Table K V × Option (K × V))
  | .get k => (get c ht k).map (fun r => (ht, r))
  | .set k v => set c ht k v
  | .remove k => remove c ht k
  | .clear => some ((clear ht).1, none)
  | .setCapacity n => (setCapacity ht n).map (fun t => (t, none))
  | .ensureCapacity n => (ensureCapacity ht n).map (fun t => (t, none))

/-- Performs a history of requests; collects the answers. -/
def runAll (c : Cfg K) (ht : Table K V) : List (Op K V) → Option (Table K V × List (Option (K × V)))
  | [] => some (ht, [])
  | op :: ops => do
    let (ht', r) ← perform c ht op
    let (ht'', rs) ← runAll c ht' ops
    some (ht'', r :: rs)

theorem perform_spec {c : Cfg K} (lc : Lawful c) {ht : Table K V} {ch : Nat → List Nat}
    {fr : List Nat} {m : FMap K V} (h : RepInv c ht ch fr) (ha : Abs c ht m) (op : Op K V) :
    ∃ ht' ch' fr', perform c ht op = some (ht', (step c.keyeq m op).2) ∧
      RepInv c ht' ch' fr' ∧ Abs c ht' (step c.keyeq m op).1 := by
  cases op with
  | get k => exact ⟨ht, ch, fr, by simp [perform, get_spec lc h ha, step], h, ha⟩
  | set k v => exact set_spec lc h ha k v
  | remove k => exact remove_spec lc h ha k
  | clear =>
    obtain ⟨ch', fr', h1, h2, _⟩ := clear_spec h ha
    exact ⟨_, ch', fr', rfl, h1, h2⟩
  | setCapacity n =>
    obtain ⟨ht', ch', h1, h2, h3, _, _⟩ := setCapacity_spec lc h n
    exact ⟨ht', ch', [], by simp [perform, h1, step], h2, fun k kv => by rw [h3]; exact ha k kv⟩
  | ensureCapacity n =>
    obtain ⟨ht', ch', fr', h1, h2, h3, _, _, _⟩ := ensureCapacity_spec lc h n
    exact ⟨ht', ch', fr', by simp [perform, h1, step], h2, fun k kv => by rw [h3]; exact ha k kv⟩

theorem runAll_spec {c : Cfg K} (lc : Lawful c) :
    ∀ (ops : List (Op K V)) {ht : Table K V} {ch : Nat → List Nat}
    {fr : List Nat} {m : FMap K V}, RepInv c ht ch fr → Abs c ht m →
    ∃ ht' ch' fr', runAll c ht ops = some (ht', (run c.keyeq m ops).2) ∧
      RepInv c ht' ch' fr' ∧ Abs c ht' (run c.keyeq m ops).1
  | [], ht, ch, fr, m, h, ha => ⟨ht, ch, fr, rfl, h, ha⟩
  | op :: ops, ht, ch, fr, m, h, ha => by
    obtain ⟨ht1, ch1, fr1, h1, h2, h3⟩ := perform_spec lc h ha op
    obtain ⟨ht2, ch2, fr2, h4, h5, h6⟩ := runAll_spec lc ops h2 h3
    exact ⟨ht2, ch2, fr2, by simp [runAll, h1, h4, run], h5, h6⟩

theorem init_abs (c : Cfg K) (n : Nat) : Abs c (init n : Table K V) (fun _ => none) := by
  intro k kv; simp [init_kvs]

/-- **C01.** Whatever history of requests is performed on a fresh table of any capacity, with any
hash function compatible with key equality: the C code never misbehaves (`some`), and every answer
is the one a finite map gives. -/
theorem C01_hashtable_is_finite_map {c : Cfg K} (lc : Lawful c) (capacity : Nat)
    (ops : List (Op K V)) :
    ∃ ht, runAll c (init capacity) ops = some (ht, (run c.keyeq (fun _ => none) ops).2) := by
  obtain ⟨ht, _, _, h, _, _⟩ := runAll_spec lc ops (init_inv c capacity) (init_abs c capacity)
  exact ⟨ht, h⟩

/-- **C01**, second half of the English statement spelled out: after any history, looking up any
key gives the pair in the abstract map. -/
theorem C01_lookup_after_history {c : Cfg K} (lc : Lawful c) (capacity : Nat)
    (ops : List (Op K V)) (ht : Table K V) (rs : List (Option (K × V)))
    (hrun : runAll c (init capacity) ops = some (ht, rs)) (k : K) :
    get c ht k = some ((run c.keyeq (fun _ => none) ops).1 k) := by
  obtain ⟨ht', _, _, h, h1, h2⟩ := runAll_spec lc ops (init_inv c capacity) (init_abs c capacity)
  rw [hrun] at h; cases h
  exact get_spec lc h1 h2 k

/-- **C01**, resizing: the requested capacity is provided. -/
theorem C01_ensureCapacity_provides {c : Cfg K} (lc : Lawful c) (capacity : Nat)
    (ops : List (Op K V)) (ht : Table K V) (rs : List (Option (K × V)))
    (hrun : runAll c (init capacity) ops = some (ht, rs)) (n : Nat) :
    ∃ ht', ensureCapacity ht n = some ht' ∧ n ≤ ht'.capacity := by
  obtain ⟨ht', _, _, h, h1, h2⟩ := runAll_spec lc ops (init_inv c capacity) (init_abs c capacity)
  rw [hrun] at h; cases h
  obtain ⟨t, _, _, g1, _, _, _, g5, _⟩ := ensureCapacity_spec lc h1 n
  exact ⟨t, g1, g5⟩

/-- **C01**, clearing: every stored pair is handed to the freer exactly once – the pairs are
exactly the live ones, no two of them with equal keys. -/
theorem C01_clear_frees_each_pair_once {c : Cfg K} (lc : Lawful c) (capacity : Nat)
    (ops : List (Op K V)) (ht : Table K V) (rs : List (Option (K × V)))
    (hrun : runAll c (init capacity) ops = some (ht, rs)) :
    (∀ kv, kv ∈ (clear ht).2 ↔ (run c.keyeq (fun _ => none) ops).1 kv.1 = some kv) ∧
    (clear ht).2.Pairwise (fun a b => c.keyeq a.1 b.1 = false) := by
  obtain ⟨ht', _, _, h, h1, h2⟩ := runAll_spec lc ops (init_inv c capacity) (init_abs c capacity)
  rw [hrun] at h; cases h
  obtain ⟨_, _, _, _, h3⟩ := clear_spec h1 h2
  rw [h3]
  exact ⟨fun kv => by rw [h2 kv.1 kv]; simp [lc.refl], h1.pairwise⟩

/-- **C02.** In any reachable table, the client loop over `ht_next` from index 0 terminates with a
list `l` such that: its members are exactly the pairs a lookup can return, no two have equal keys
(so each entry is yielded once), its length is the reported count, and `ht_tokvarray` gives the
same list. -/
theorem C02_enumeration {c : Cfg K} (lc : Lawful c) (capacity : Nat)
    (ops : List (Op K V)) (ht : Table K V) (rs : List (Option (K × V)))
    (hrun : runAll c (init capacity) ops = some (ht, rs)) :
    ∃ l, iterate ht (ht.count + 1) 0 = some l ∧
      (∀ kv, kv ∈ l ↔ (run c.keyeq (fun _ => none) ops).1 kv.1 = some kv) ∧
      l.Pairwise (fun a b => c.keyeq a.1 b.1 = false) ∧
      l.length = ht.count ∧
      toKvArray ht = some l := by
  obtain ⟨ht', _, _, h, h1, h2⟩ := runAll_spec lc ops (init_inv c capacity) (init_abs c capacity)
  rw [hrun] at h; cases h
  refine ⟨kvs ht.entries, ?_, ?_, h1.pairwise, h1.cnt.symm, ?_⟩
  · have := iterate_spec h1.elen (ht.count + 1) 0 (by have := h1.cnt; simp; omega)
    simpa using this
  · intro kv; rw [h2 kv.1 kv]; simp [lc.refl]
  · have h3 := h1.cnt
    have h4 := h1.elen
    unfold kvs at h3 ⊢
    rw [toKvArray, ← h4]
    simp [← h3]

/-! ## Non-vacuity: a colliding hash function and a history that grows, removes and reuses. -/

/-- Keys are numbers, all in two buckets. -/
def demoCfg : Cfg Nat := { hash := fun k => k % 2, keyeq := fun a b => a == b }

theorem demoCfg_lawful : Lawful demoCfg where
  refl := by simp [demoCfg]
  symm := by simp only [demoCfg, beq_iff_eq]; intro a b h; exact h.symm
  trans := by simp only [demoCfg, beq_iff_eq]; intro a b c h1 h2; exact h1.trans h2
  hash := by simp only [demoCfg, beq_iff_eq]; intro a b h; rw [h]

def demoOps : List (Op Nat String) :=
  [.set 1 "a", .set 3 "b", .set 5 "c", .remove 3, .set 7 "d", .set 1 "e", .setCapacity 2,
   .get 5, .get 3, .remove 7, .get 1]

example : (runAll demoCfg (init 0) demoOps).map (·.2) =
    some [none, none, none, some (3, "b"), none, some (1, "a"), none,
      some (5, "c"), none, some (7, "d"), some (1, "e")] := by decide
example : ∃ ht, runAll demoCfg (init 0) demoOps =
    some (ht, (run demoCfg.keyeq (fun _ => none) demoOps).2) :=
  C01_hashtable_is_finite_map demoCfg_lawful 0 demoOps
example : ((runAll demoCfg (init 0) demoOps).bind fun r => toKvArray r.1) =
    some [(1, "e"), (5, "c")] := by decide

end Yash.HashTable
