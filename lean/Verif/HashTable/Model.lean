/-!
# Model of `hashtable.c`

The table is an array of entries (`entries`) threaded into singly linked chains whose heads are in
the bucket array (`indices`), plus a chain of reusable entries (`emptyindex`).  Everything is kept
as in the C code: in particular removal updates a link *in place* through a pointer.

Outcome `none` of an operation stands for undefined behaviour in C (array access out of bounds,
dereferencing an unoccupied entry's key) or for a loop that does not end.

Simplifications: `size_t` arithmetic does not overflow (a table that large cannot be allocated);
memory allocation succeeds; the `freer` callback of `ht_clear` is not called but its arguments are
returned.  `NULL` keys are not representable; a `NULL` value is just a value.
-/

namespace Yash.HashTable

/-- hashtable.h: `hashfunc_T` and `keycmp_T`, the two functions stored in a table. -/
structure Cfg (K : Type) where
  hash : K → Nat
  keyeq : K → K → Bool

/-- hashtable.c:74-78 `struct hash_entry`. `none` in `next` is `NOTHING` (72);
`none` in `kv` is `.kv.key == NULL` (an unoccupied entry, 79-81). -/
structure Entry (K V : Type) where
  next : Option Nat
  hash : Nat
  kv : Option (K × V)

/-- hashtable.c:33-52 `struct hashtable_T` (without the function pointers). -/
structure Table (K V : Type) where
  capacity : Nat
  count : Nat
  emptyindex : Option Nat
  tailindex : Nat
  indices : List (Option Nat)
  entries : List (Entry K V)

variable {K V : Type}

/-- An entry right after allocation: key is `NULL`, other members are unspecified
(here: some fixed garbage) (hashtable.c:103-106). -/
def Entry.blank : Entry K V := { next := none, hash := 0, kv := none }

/-- hashtable.c:87-109 `ht_initwithcapacity`. -/
def init (capacity : Nat) : Table K V :=
  let capacity := if capacity = 0 then 1 else capacity
  { capacity, count := 0, emptyindex := none, tailindex := 0,
    indices := List.replicate capacity none,
    entries := List.replicate capacity Entry.blank }

/-- State of the copying loop of `ht_setcapacity`. -/
structure Rehash (K V : Type) where
  indices : List (Option Nat)
  entries : List (Entry K V)
  tail : Nat

/-- hashtable.c:137-151, body of the copying loop of `ht_setcapacity` for one old entry. -/
def rehashStep (newcapacity : Nat) (s : Rehash K V) (e : Entry K V) : Option (Rehash K V) :=
  match e.kv with
  | none => some s
  | some kv => do
    let newindex := e.hash % newcapacity
    let link ← s.indices[newindex]?
    if s.tail < s.entries.length then
      some {
        entries := s.entries.set s.tail { next := link, hash := e.hash, kv := some kv }
        indices := s.indices.set newindex (some s.tail)
        tail := s.tail + 1 }
    else none

/-- hashtable.c:117-162 `ht_setcapacity`. -/
def setCapacity (ht : Table K V) (newcapacity : Nat) : Option (Table K V) := do
  let newcapacity := if newcapacity = 0 then 1 else newcapacity
  let newcapacity := if newcapacity < ht.count then ht.count else newcapacity
  let s ← ht.entries.foldlM (rehashStep newcapacity)
    { indices := List.replicate newcapacity none,
      entries := List.replicate newcapacity Entry.blank,
      tail := 0 }
  some { ht with
    capacity := newcapacity
    emptyindex := none
    tailindex := s.tail
    indices := s.indices
    entries := s.entries }

/-- hashtable.c:166-177 `ht_ensurecapacity`. -/
def ensureCapacity (ht : Table K V) (capacity : Nat) : Option (Table K V) :=
  if capacity ≤ ht.capacity then some ht
  else
    let cap15 := ht.capacity + ht.capacity / 2
    let capacity := if capacity < cap15 then cap15 else capacity
    let capacity := if capacity < ht.capacity + 6 then ht.capacity + 6 else capacity
    setCapacity ht capacity

/-- hashtable.c:183-204 `ht_clear`; the second component lists the pairs given to `freer`. -/
def clear (ht : Table K V) : Table K V × List (K × V) :=
  if ht.count = 0 then (ht, [])
  else
    ({ ht with
        indices := ht.indices.map (fun _ => none)
        entries := ht.entries.map (fun e => { e with kv := none })
        count := 0, emptyindex := none, tailindex := 0 },
      ht.entries.filterMap (·.kv))

/-- The chain walk shared by `ht_get` (hashtable.c:213-218) and `ht_set` (236-246): finds the index
of the entry with an equal key.  `fuel` bounds the number of iterations; running out means the C
loop would go on. Result: `none` = undefined/endless, `some none` = not found. -/
def findLoop (c : Cfg K) (entries : List (Entry K V)) (h : Nat) (key : K) :
    Nat → Option Nat → Option (Option Nat)
  | _, none => some none
  | 0, some _ => none
  | fuel + 1, some i => do
    let e ← entries[i]?
    if e.hash = h then
      let kv ← e.kv
      if c.keyeq kv.1 key then some (some i)
      else findLoop c entries h key fuel e.next
    else findLoop c entries h key fuel e.next

/-- hashtable.c:208-222 `ht_get` (for a non-NULL key). -/
def get (c : Cfg K) (ht : Table K V) (key : K) : Option (Option (K × V)) := do
  let h := c.hash key
  let index ← ht.indices[h % ht.capacity]?
  let r ← findLoop c ht.entries h key (ht.capacity + 1) index
  match r with
  | none => some none
  | some i => do
    let e ← ht.entries[i]?
    some e.kv

/-- hashtable.c:228-272 `ht_set`. -/
def set (c : Cfg K) (ht : Table K V) (key : K) (value : V) :
    Option (Table K V × Option (K × V)) := do
  let h := c.hash key
  let index ← ht.indices[h % ht.capacity]?
  let r ← findLoop c ht.entries h key (ht.capacity + 1) index
  match r with
  | some i => do
    let e ← ht.entries[i]?
    some ({ ht with entries := ht.entries.set i { e with kv := some (key, value) } }, e.kv)
  | none => do
    let (ht, index, mhash) ← (match ht.emptyindex with
      | some i => do
        let e ← ht.entries[i]?
        some ({ ht with emptyindex := e.next }, i, h % ht.capacity)
      | none => do
        let ht ← ensureCapacity ht (ht.count + 1)
        some ({ ht with tailindex := ht.tailindex + 1 }, ht.tailindex, h % ht.capacity) :
        Option (Table K V × Nat × Nat))
    let link ← ht.indices[mhash]?
    if index < ht.entries.length then
      some ({ ht with
        entries := ht.entries.set index { next := link, hash := h, kv := some (key, value) }
        indices := ht.indices.set mhash (some index)
        count := ht.count + 1 }, none)
    else none

/-- The pointer `indexp` of `ht_remove` (hashtable.c:279,294): it points either to a bucket or to
the `next` member of an entry. -/
inductive Link where
  | bucket (b : Nat)
  | next (i : Nat)

/-- `*indexp`. -/
def Link.read (ht : Table K V) : Link → Option (Option Nat)
  | .bucket b => ht.indices[b]?
  | .next i => do let e ← ht.entries[i]?; some e.next

/-- `*indexp = v`. -/
def Link.write (ht : Table K V) (v : Option Nat) : Link → Table K V
  | .bucket b => { ht with indices := ht.indices.set b v }
  | .next i => match ht.entries[i]? with
    | some e => { ht with entries := ht.entries.set i { e with next := v } }
    | none => ht

/-- hashtable.c:280-295, the loop of `ht_remove`. -/
def removeLoop (c : Cfg K) (h : Nat) (key : K) :
    Nat → Table K V → Link → Option (Table K V × Option (K × V))
  | 0, _, _ => none
  | fuel + 1, ht, p => do
    match ← p.read ht with
    | none => some (ht, none)
    | some i => do
      let e ← ht.entries[i]?
      let found ← (if e.hash = h then do let kv ← e.kv; some (c.keyeq kv.1 key) else some false :
        Option Bool)
      if found then
        let oldkv := e.kv
        let ht := p.write ht e.next
        let e ← ht.entries[i]?
        some ({ ht with
          entries := ht.entries.set i { e with next := ht.emptyindex, kv := none }
          emptyindex := some i
          count := ht.count - 1 }, oldkv)
      else removeLoop c h key fuel ht (.next i)

/-- hashtable.c:276-298 `ht_remove` (for a non-NULL key). -/
def remove (c : Cfg K) (ht : Table K V) (key : K) : Option (Table K V × Option (K × V)) :=
  let h := c.hash key
  removeLoop c h key (ht.capacity + 1) ht (.bucket (h % ht.capacity))

/-- hashtable.c:334-343 `ht_next`: `i` is `*indexp`; the second component is its new value. -/
def nextEntry (ht : Table K V) (i : Nat) : Option (Option (K × V) × Nat) :=
  if h : i < ht.capacity then
    match ht.entries[i]? with
    | none => none
    | some e => match e.kv with
      | some kv => some (some kv, i + 1)
      | none => nextEntry ht (i + 1)
  else some (none, i)
termination_by ht.capacity - i

/-- The usual client loop `while ((kv = ht_next(ht, &i)).key != NULL) …` (e.g. variable.c:983). -/
def iterate (ht : Table K V) : Nat → Nat → Option (List (K × V))
  | 0, _ => none
  | fuel + 1, i => do
    match ← nextEntry ht i with
    | (none, _) => some []
    | (some kv, i) => do
      let rest ← iterate ht fuel i
      some (kv :: rest)

/-- hashtable.c:348-362 `ht_tokvarray`: fails if the buffer of `count + 1` pairs would overflow or
if the assertion on line 359 does not hold. -/
def toKvArray (ht : Table K V) : Option (List (K × V)) :=
  let a := (ht.entries.take ht.capacity).filterMap (·.kv)
  if ht.entries.length < ht.capacity then none
  else if a.length = ht.count then some a else none

end Yash.HashTable
