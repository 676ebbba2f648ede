/-!
# Model of the trie of the line editor (lineedit/trie.c)

The byte and the wide character variants of the functions are the same code; they are modelled once,
for an arbitrary type `K` of key elements with the comparison `<` of C.  A key is a list of elements.
A node keeps the size of its allocated entry array (`cap`), and a write outside it, a read outside
the entries in use and a failing `assert` are `none`.

Simplification: memory allocation succeeds and sizes do not overflow.
-/
set_option autoImplicit false

namespace Yash.Trie

/-- trie.c:32-45: a node.  `value` is `none` if `valuevalid` is false; `entries` has `count`
elements. -/
inductive Node (K V : Type) where
  | mk (value : Option V) (cap : Nat) (entries : List (K × Node K V))

variable {K V : Type}

/-- `node->value` if `node->valuevalid`. -/
def Node.value : Node K V → Option V
  | .mk v _ _ => v

/-- The size of the allocated array. -/
def Node.cap : Node K V → Nat
  | .mk _ c _ => c

/-- `node->entries[0 .. node->count - 1]`. -/
def Node.entries : Node K V → List (K × Node K V)
  | .mk _ _ es => es

/-- trie.c:48 `RAISE_COUNT`. -/
def raiseCount (n : Nat) : Nat := n ||| 3

/-- trie.c:76-83 `trie_create`. -/
def create : Node K V := .mk none (raiseCount 0) []

/-- trie.c:87-90 `isempty`. -/
def isEmpty (t : Node K V) : Bool := t.entries.length == 0 && t.value.isNone

/-- trie.c:94-101 `ensure_size`. -/
def ensureSize (t : Node K V) (count : Nat) : Node K V :=
  let count := raiseCount count
  if raiseCount t.entries.length ≥ count then t
  else .mk t.value count t.entries

/-- trie.c:112-128 `binarysearch`, 139-155 `binarysearchw`; `lt` is `<` of the key type. -/
def binarySearch [DecidableEq K] (lt : K → K → Bool) (e : List (K × Node K V)) (key : K)
    (offset : Nat) (count : Nat) : Option Int :=
  if h : count = 0 then some (- (offset : Int) - 1)
  else
    let i := count / 2
    match e[offset + i]? with
    | none => none
    | some en =>
      if key = en.1 then some ((offset + i : Nat) : Int)
      else if lt key en.1 then binarySearch lt e key offset i
      else binarySearch lt e key (offset + (i + 1)) (count - (i + 1))
termination_by count
decreasing_by
  · omega
  · omega

/-- trie.c:107-110 `search`, 134-137 `searchw`. -/
def search [DecidableEq K] (lt : K → K → Bool) (t : Node K V) (key : K) : Option Int :=
  binarySearch lt t.entries key 0 t.entries.length

/-- trie.c:158-169 `insert_entry`. -/
def insertEntry (t : Node K V) (index : Nat) (key : K) : Option (Node K V) :=
  if index ≤ t.entries.length then
    let t := ensureSize t (t.entries.length + 1)
    if t.entries.length + 1 ≤ t.cap then
      some (.mk t.value t.cap (t.entries.take index ++ (key, create) :: t.entries.drop index))
    else none
  else none

/-- trie.c:179-185 (also 196-202, 216-222, 428-433): finds the entry for `key`, inserting one if
there is none; the index of the entry and the node. -/
def locate [DecidableEq K] (lt : K → K → Bool) (t : Node K V) (key : K) :
    Option (Node K V × Nat) :=
  match search lt t key with
  | none => none
  | some index =>
    if index < 0 then
      match insertEntry t (- (index + 1)).toNat key with
      | none => none
      | some t => some (t, (- (index + 1)).toNat)
    else some (t, index.toNat)

/-- `node->entries[index].child = child`. -/
def setChild (t : Node K V) (index : Nat) (child : Node K V) : Option (Node K V) :=
  match t.entries[index]? with
  | none => none
  | some en => some (.mk t.value t.cap (t.entries.set index (en.1, child)))

/-- trie.c:173-190 `trie_set`, 210-227 `trie_setw`. -/
def set [DecidableEq K] (lt : K → K → Bool) (t : Node K V) : List K → V → Option (Node K V)
  | [], v => some (.mk (some v) t.cap t.entries)
  | k :: ks, v =>
    match locate lt t k with
    | none => none
    | some (t, index) =>
      match t.entries[index]? with
      | none => none
      | some en =>
        match set lt en.2 ks v with
        | none => none
        | some child => setChild t index child

/-- trie.c:194-206 `trie_set_null`; `nul` is the byte `'\0'`. -/
def setNull [DecidableEq K] (lt : K → K → Bool) (nul : K) (t : Node K V) (v : V) :
    Option (Node K V) :=
  match locate lt t nul with
  | none => none
  | some (t, index) =>
    match t.entries[index]? with
    | none => none
    | some en =>
      match set lt en.2 [] v with
      | none => none
      | some child => setChild t index child

/-- trie.c:230-240 `shrink`, after the `memmove` that removes the entry at `index` (255-256). -/
def removeEntry (t : Node K V) (index : Nat) : Node K V :=
  let es := t.entries.take index ++ t.entries.drop (index + 1)
  let oldcount := raiseCount t.entries.length
  let newcount := raiseCount (t.entries.length - 1)
  .mk t.value (if oldcount ≠ newcount then newcount else t.cap) es

/-- trie.c:243-262 `trie_remove`, 265-284 `trie_removew`. -/
def remove [DecidableEq K] (lt : K → K → Bool) (t : Node K V) : List K → Option (Node K V)
  | [] => some (.mk none t.cap t.entries)
  | k :: ks =>
    match search lt t k with
    | none => none
    | some index =>
      if index ≥ 0 then
        match t.entries[index.toNat]? with
        | none => none
        | some en =>
          match remove lt en.2 ks with
          | none => none
          | some child =>
            match setChild t index.toNat child with
            | none => none
            | some t => if isEmpty child then some (removeEntry t index.toNat) else some t
      else some t

/-- trie.h `trieget_T`: the flags `TG_EXACTMATCH` (with the value) and `TG_PREFIXMATCH`, and the
length of the match. -/
structure Get (V : Type) where
  exact : Option V
  prefixMatch : Bool
  matchlength : Nat

/-- trie.c:291-319 `trie_get`, 324-352 `trie_getw`.  In `trie_get` the input is delimited by its
length, in `trie_getw` by a NUL. -/
def get [DecidableEq K] (lt : K → K → Bool) (t : Node K V) : List K → Option (Get V)
  | [] => some { exact := t.value, prefixMatch := t.entries.length > 0, matchlength := 0 }
  | k :: ks =>
    match search lt t k with
    | none => none
    | some index =>
      if index < 0 then some { exact := t.value, prefixMatch := false, matchlength := 0 }
      else
        match t.entries[index.toNat]? with
        | none => none
        | some en =>
          match get lt en.2 ks with
          | none => none
          | some r =>
            match r.exact with
            | some _ => some { r with matchlength := r.matchlength + 1 }
            | none =>
              match t.value with
              | some v => some { r with exact := some v, matchlength := 0 }
              | none => some r

/-! ## Enumeration -/

/-- The callback of `trie_foreachw`: it may have side effects (on `σ`) and stops the iteration by
returning a non-zero value. -/
abbrev Callback (K V σ : Type) := σ → List K → V → σ × Int

mutual
/-- trie.c:372-397 `foreachw`; `buf` is the key so far. -/
def foreach {σ : Type} (f : Callback K V σ) (s : σ) (buf : List K) : Node K V → σ × Int
  | .mk v _ es =>
    match v with
    | some v =>
      match f s buf v with
      | (s, r) => if r ≠ 0 then (s, r) else foreachEntries f s buf es
    | none => foreachEntries f s buf es
/-- trie.c:385-394: the loop over the entries. -/
def foreachEntries {σ : Type} (f : Callback K V σ) (s : σ) (buf : List K) :
    List (K × Node K V) → σ × Int
  | [] => (s, 0)
  | en :: es =>
    match foreachEntry f s buf en with
    | (s, r) => if r ≠ 0 then (s, r) else foreachEntries f s buf es
/-- trie.c:386-388: one iteration. -/
def foreachEntry {σ : Type} (f : Callback K V σ) (s : σ) (buf : List K) : K × Node K V → σ × Int
  | (k, c) => foreach f s (buf ++ [k]) c
end

/-! ## Prediction (trie.c:411-494)

`double` is an abstract type with the operations used. -/

/-- The operations on `double` used for prediction: `+`, `>`, `/ 2`, and `-HUGE_VAL`. -/
structure Dbl (P : Type) where
  add : P → P → P
  gt : P → P → Bool
  ge : P → P → Bool
  half : P → P
  negHuge : P

variable {P : Type}

/-- trie.c:418-423: updates the probability of a node. -/
def bump (D : Dbl P) (t : Node K P) (p : P) : Node K P :=
  .mk (some (match t.value with
    | some q => D.add q p
    | none => p)) t.cap t.entries

/-- trie.c:415-437 `trie_add_probability`. -/
def addProbability [DecidableEq K] (D : Dbl P) (lt : K → K → Bool) (t : Node K P) (p : P) :
    List K → Option (Node K P)
  | [] => some (bump D t p)
  | k :: ks =>
    match locate lt (bump D t p) k with
    | none => none
    | some (t, index) =>
      match t.entries[index]? with
      | none => none
      | some en =>
        match addProbability D lt en.2 p ks with
        | none => none
        | some child => setChild t index child

/-- trie.c:485-492: the loop of `most_probable_child`; the assertion is that the child has a
value. -/
def mostProbableLoop (D : Dbl P) : List (K × Node K P) → P → Option (K × Node K P) →
    Option (Option (K × Node K P))
  | [], _, entry => some entry
  | en :: es, max, entry =>
    match en.2.value with
    | none => none
    | some p => if D.gt p max then mostProbableLoop D es p (some en) else mostProbableLoop D es max entry

/-- trie.c:481-494 `most_probable_child`. -/
def mostProbableChild (D : Dbl P) (t : Node K P) : Option (Option (K × Node K P)) :=
  mostProbableLoop D t.entries D.negHuge none

/-- trie.c:468-473: the loop of `trie_probable_key`.  The C loop goes one level down in each
iteration; `fuel` is a bound on the depth, and running out of it is `none`. -/
def probableLoop (D : Dbl P) (isBlank : K → Bool) (threshold : P) :
    Nat → Option (K × Node K P) → List K → Option (List K)
  | _, none, key => some key
  | 0, some _, _ => none
  | fuel + 1, some (k, c), key =>
    match c.value with
    | none => none
    | some p =>
      if D.ge p threshold || isBlank k then
        match mostProbableChild D c with
        | none => none
        | some entry => probableLoop D isBlank threshold fuel entry (key ++ [k])
      else some key

/-- trie.c:446-452: skips the prefix; `some none` is the early return of the empty string. -/
def skipKey [DecidableEq K] (lt : K → K → Bool) : Node K P → List K → Option (Option (Node K P))
  | t, [] => some (some t)
  | t, k :: ks =>
    match search lt t k with
    | none => none
    | some index =>
      if index < 0 then some none
      else
        match t.entries[index.toNat]? with
        | none => none
        | some en => skipKey lt en.2 ks

mutual
/-- The height of a trie: enough fuel for `probableLoop`. -/
def height : Node K P → Nat
  | .mk _ _ es => heightEntries es + 1
/-- The greatest height of the children. -/
def heightEntries : List (K × Node K P) → Nat
  | [] => 0
  | en :: es => max (heightEntry en) (heightEntries es)
/-- The height of a child. -/
def heightEntry : K × Node K P → Nat
  | (_, c) => height c
end

/-- trie.c:443-477 `trie_probable_key`. -/
def probableKey [DecidableEq K] (D : Dbl P) (lt : K → K → Bool) (isBlank : K → Bool)
    (t : Node K P) (skipkey : List K) : Option (List K) :=
  match skipKey lt t skipkey with
  | none => none
  | some none => some []
  | some (some t) =>
    match mostProbableChild D t with
    | none => none
    | some none => some []
    | some (some (k, c)) =>
      match c.value with
      | none => none
      | some p => probableLoop D isBlank (D.half p) (height t) (some (k, c)) []

end Yash.Trie
