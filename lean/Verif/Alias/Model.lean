/-!
# Model of alias substitution (alias.c) and of the reader's line continuations

A wide string is a `List Char`.  The parse buffer `xwcsbuf_T` is its contents, an index is a
`Nat`.  A failed `assert` and an access out of the buffer are `none`.
The hash table of aliases is the list of its entries, with the lookup that `C01` proves it has.
An alias is identified with its definition: while one command is parsed the table does not
change, so pointer equality of `alias_T` coincides with equality of definitions.
-/
set_option autoImplicit false

namespace Yash.Alias

/-- `alias_T` (alias.c:49-54), with the name that the structure stores after the value. -/
structure Alias where
  name : List Char
  value : List Char
  isGlobal : Bool
deriving DecidableEq, Repr

/-- One item of `aliaslist_T` (alias.c:56-60). -/
structure Item where
  alias : Alias
  limit : Nat
deriving DecidableEq, Repr

/-- The environment of a substitution: the alias table, `iswblank` and `posixly_correct`. -/
structure Env where
  aliases : List Alias
  blank : Char → Bool
  posix : Bool

/-- `substaliasflags_T` (alias.h:29-32). -/
structure Flags where
  nonglobal : Bool
  noeof : Bool

/-- `ht_get(&aliases, name)` (alias.c:329-333). -/
def lookup (tbl : List Alias) (name : List Char) : Option Alias :=
  tbl.find? fun a => a.name == name

/-- `contained_in_list` (alias.c:200-208). -/
def contained (l : List Item) (a : Alias) (i : Nat) : Bool :=
  l.any fun it => decide (i ≤ it.limit) && it.alias == a

/-- `add_to_aliaslist` (alias.c:211-224). -/
def addItem : List Item → Alias → Nat → List Item
  | [], a, n => [⟨a, n⟩]
  | it :: l, a, n => if it.limit < n then it :: addItem l a n else ⟨a, n⟩ :: it :: l

/-- `ends_with_blank` (alias.c:258-261). -/
def endsWithBlank (blank : Char → Bool) (a : Alias) : Bool :=
  match a.value.getLast? with
  | some c => blank c
  | none => false

/-- `is_blank_range` (alias.c:264-271): characters in the range `[from, to)`. -/
def isBlankRange (blank : Char → Bool) (src : List Char) (fr to : Nat) : Option Bool :=
  if fr ≥ to ∨ to ≤ src.length then some (((src.take to).drop fr).all blank) else none

/-- `remove_expired_aliases` (alias.c:234-255). -/
def removeExpired (blank : Char → Bool) (src : List Char) (index : Nat) :
    List Item → Option (List Item × Bool)
  | [] => some ([], false)
  | it :: l =>
    if it.limit ≤ index then
      if !it.alias.isGlobal && endsWithBlank blank it.alias then
        match isBlankRange blank src it.limit index with
        | none => none
        | some true => some (it :: l, true)
        | some false => removeExpired blank src index l
      else removeExpired blank src index l
    else some (it :: l, false)

/-- `shift_aliaslist_index` (alias.c:275-284). -/
def shift (i : Nat) (inc : Int) : List Item → Option (List Item)
  | [] => some []
  | it :: l =>
    if i < it.limit then
      if 0 ≤ inc ∨ -inc ≤ it.limit then
        (shift i inc l).map (⟨it.alias, (it.limit + inc).toNat⟩ :: ·)
      else none
    else (shift i inc l).map (it :: ·)

/-- The part of `substitute_alias_range` after the expired items have been removed
(alias.c:318-351); `nonglobal` is the flag `AF_NONGLOBAL` as updated in line 315. -/
def substituteFresh (E : Env) (src : List Char) (i j : Nat) (l : List Item)
    (nonglobal noeof : Bool) : Option (Option Alias × List Char × List Item) :=
  if !nonglobal && E.posix then some (none, src, l)
  else if j ≤ i then some (none, src, l)
  else if noeof && j == src.length then some (none, src, l)
  else if src.length < j then none
  else
    match lookup E.aliases ((src.take j).drop i) with
    | none => some (none, src, l)
    | some a =>
      if !nonglobal && !a.isGlobal then some (none, src, l)
      else if contained l a i then some (none, src, l)
      else
        match shift i ((a.value.length : Int) - ((j - i : Nat) : Int)) l with
        | none => none
        | some l' =>
          some (some a, src.take i ++ a.value ++ src.drop j, addItem l' a (i + a.value.length))

/-- `substitute_alias_range` (alias.c:309-352).  The result tells which alias was substituted,
and gives the new buffer and the new list. -/
def substituteRange (E : Env) (src : List Char) (i j : Nat) (l : List Item) (f : Flags) :
    Option (Option Alias × List Char × List Item) :=
  if E.aliases.isEmpty then some (none, src, l)
  else
    match removeExpired E.blank src i l with
    | none => none
    | some (l', afterblank) => substituteFresh E src i j l' (f.nonglobal || afterblank) f.noeof

/-- `line_continuation` (parser.c:953-963), without the line number and the reading of the next
line (which is an event of its own): `wb_remove(src, index, 2)` and
`shift_aliaslist_index(aliases, index + 1, -2)`. -/
def lineContinuation (src : List Char) (l : List Item) (k : Nat) :
    Option (List Char × List Item) :=
  if src[k]? = some '\\' ∧ src[k + 1]? = some '\n' then
    (shift (k + 1) (-2) l).map (src.take k ++ src.drop (k + 2), ·)
  else none

end Yash.Alias
