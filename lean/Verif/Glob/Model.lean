import Verif.Glob.Fs
import Verif.Fnmatch.Match
import Verif.Expand.Quote
/-!
# Model of path.c: pathname expansion (`wglob`)

Simplifications:
* The multibyte and the wide version of a pathname are the same list of characters.  File names
  that cannot be converted to wide strings, which the shell skips, are not in the listings.
* The expansion is not interrupted by a signal.
* The file system does not change during the expansion, and a directory can be read no matter how
  many directories are open.
* The contents of an uninitialised `struct stat` are given by `junk`, about which nothing is
  assumed.
-/
set_option autoImplicit false

namespace Yash.Glob

open Fnmatch (Compiled Locale Flags xfnmCompile xfnmMatch isMatchingPattern)

/-- path.h:92-98 `enum wglobflags_T` -/
structure GlobFlags where
  mark : Bool := false
  casefold : Bool := false
  period : Bool := false
  nosort : Bool := false
  recdir : Bool := false

/-- path.c:555-571 `struct wglob_pattern` -/
inductive Comp where
  | literal (name : Path)
  | «match» (pattern : Compiled)
  | recsearch (followlink allowperiod : Bool)

/-- path.c:590-594 `struct wglob_stack`.  The items of `active_components` are unsigned
characters. -/
structure Frame where
  active : List Nat
  st : Stat

/-- path.c:746-786 `wglob_parse_component`; `encodable` tells if `malloc_wcstombs` succeeds. -/
def parseComponent (encodable : Path → Bool) (flags : GlobFlags) (hasNext : Bool) (pattern : Path) :
    Option Comp :=
  if hasNext && flags.recdir && pattern == ['*', '*'] then some (.recsearch false false)
  else if hasNext && flags.recdir && pattern == ['*', '*', '*'] then some (.recsearch true false)
  else if hasNext && flags.recdir && pattern == ['.', '*', '*'] then some (.recsearch false true)
  else if hasNext && flags.recdir && pattern == ['.', '*', '*', '*'] then some (.recsearch true true)
  else if isMatchingPattern pattern then
    match xfnmCompile pattern
      { headonly := true, tailonly := true, casefold := flags.casefold, period := !flags.period } with
    | some x => some (.match x)
    | none => none
  else
    let value := Expand.unescape pattern
    if encodable value then some (.literal value) else none

/-- path.c:715-741 `wglob_parse_pattern`; `component` is what has been read of the first component.
`none` is a list without components. -/
def parsePattern (encodable : Path → Bool) (flags : GlobFlags) (component : Path) :
    Path → Option (List Comp)
  | [] =>
    match parseComponent encodable flags false component with
    | some c => some [c]
    | none => none
  | ch :: pattern =>
    if ch = '/' then
      match parseComponent encodable flags true component with
      | none => none
      | some c =>
        match parsePattern encodable flags [] pattern with
        | some cs => some (c :: cs)
        | none => none
    else parsePattern encodable flags (component ++ [ch]) pattern

/-- path.c:852-863: a recursive search component may match nothing. -/
def activate : List Comp → List Nat → List Nat
  | [], active => active
  | _, [] => []
  | c :: cs, a :: active =>
    match c, active with
    | .recsearch _ _, b :: rest => a :: activate cs ((if a ≠ 0 then a else b) :: rest)
    | _, active => a :: activate cs active

/-- path.c:865-876: the names of the active literal components, with their indices. -/
def activeLiterals : Nat → List Comp → List Nat → List (Nat × Path)
  | i, c :: cs, a :: active =>
    match c with
    | .literal n =>
      if a ≠ 0 then (i, n) :: activeLiterals (i + 1) cs active else activeLiterals (i + 1) cs active
    | _ => activeLiterals (i + 1) cs active
  | _, _, _ => []

/-- path.c:865-876: whether `active_matchers` is positive. -/
def activeMatchers : List Comp → List Nat → Bool
  | c :: cs, a :: active =>
    match c with
    | .literal _ => activeMatchers cs active
    | _ => a != 0 || activeMatchers cs active
  | _, _ => false

section
variable (loc : Locale) (fs : FS) (junk : Path → Stat) (comps : List Comp) (flags : GlobFlags)

/-- path.c:932-955 `wglob_add_result`: what is added to the results. -/
def addResult (path : Path) (onlyIfExisting markdir : Bool) : List Path :=
  if !onlyIfExisting && !markdir then [path]
  else
    match fs.stat path with
    | none => if onlyIfExisting then [] else [path]
    | some st => if !markdir || !st.dir then [path] else [path ++ ['/']]

/-- path.c:195-200 `stat_result_same_file` -/
def sameFile (a b : Stat) : Bool := a.dev == b.dev && a.ino == b.ino

/-- path.c:1117-1125 `wglob_is_reentry`; the frames are the ancestors, the nearest one first. -/
def isReentry (st : Stat) : List Frame → Nat → Bool
  | [], _ => false
  | _ :: _, 0 => false
  | f :: prev, count + 1 => sameFile st f.st || isReentry st prev count

/-- path.c:1096-1102: a name that is not searched recursively. -/
def hiddenName (allowperiod : Bool) (name : Path) : Bool :=
  if allowperiod then name == ['.'] || name == ['.', '.'] else name.head? == some '.'

/-- path.c:1091-1114 `wglob_should_recurse`: the result and `t->st` afterwards. -/
def shouldRecurse (name path : Path) (followlink allowperiod : Bool) (st : Stat)
    (prev : List Frame) (count : Nat) : Bool × Stat :=
  if hiddenName allowperiod name then (false, st)
  else
    match (if followlink then fs.stat path else fs.lstat path) with
    | none => (false, st)
    | some st' =>
      if !st'.dir then (false, st')
      else if isReentry st' prev count then (false, st')
      else (true, st')

/-- What path.c:1038-1075 does for one component. -/
structure Step where
  /-- what is added to the results -/
  results : List Path
  /-- the value of `t2->active_components[i]` -/
  value : Nat
  /-- the value of `t2->active_components[i + 1]` -/
  next : Nat
  /-- the value of `t2->st` -/
  st : Stat

/-- path.c:1038-1075: the body of the loop of `wglob_scandir_entry` for the component `c`, whose
value in `t->active_components` is `a` and in `t2->active_components` is `cur`.  `path` includes
the name. -/
def stepComponent (name path : Path) (onlyIfExisting last : Bool) (prev : List Frame) (c : Comp)
    (a cur : Nat) (st : Stat) : Step :=
  if a = 0 then ⟨[], cur, 0, st⟩
  else
    match c with
    | .literal n =>
      if n ≠ name then ⟨[], cur, 0, st⟩
      else if last then ⟨addResult fs path onlyIfExisting false, cur, 0, st⟩
      else ⟨[], cur, 1, st⟩
    | .match x =>
      if name = [] then ⟨[], cur, 0, st⟩
      else if !xfnmMatch loc x name then ⟨[], cur, 0, st⟩
      else if last then ⟨addResult fs path onlyIfExisting flags.mark, cur, 0, st⟩
      else ⟨[], cur, 1, st⟩
    | .recsearch followlink allowperiod =>
      if name = [] then ⟨[], cur, 0, st⟩
      else if cur = 0 then
        let r := shouldRecurse fs name path followlink allowperiod st prev (a - 1)
        if r.1 then ⟨[], (a + 1) % 256, 0, r.2⟩ else ⟨[], 0, 0, r.2⟩
      else ⟨[], cur, 0, st⟩

/-- path.c:1038-1075: the loop of `wglob_scandir_entry`.  The loop goes through the components from
left to right, and the items of `t2->active_components`, which are zero at first, are written at
most one position ahead: `cur` is the value of the item of the first component of the rest.  The
results are what is added to the results, `t2->active_components` and `t2->st`. -/
def entryLoop (name path : Path) (onlyIfExisting : Bool) (prev : List Frame) :
    List Comp → List Nat → Nat → Stat → List Path × List Nat × Stat
  | c :: cs, a :: active, cur, st =>
    let s := stepComponent loc fs flags name path onlyIfExisting cs.isEmpty prev c a cur st
    let r := entryLoop name path onlyIfExisting prev cs active s.next s.st
    (s.results ++ r.1, s.value :: r.2.1, r.2.2)
  | _, _, _, st => ([], [], st)

/-- The results of searches that are performed one after another. -/
def collect : List (Option (List Path)) → Option (List Path)
  | [] => some []
  | none :: _ => none
  | some r :: rest =>
    match collect rest with
    | some r' => some (r ++ r')
    | none => none

/-- The names without duplicates: path.c:963-979, where a hash table is used.  The order is
irrelevant because the results are sorted. -/
def uniqueNames : List Path → List Path
  | [] => []
  | n :: ns => if n ∈ ns then uniqueNames ns else n :: uniqueNames ns

/-- `active_components` after path.c:912-913: only component `i` is active. -/
def onlyActive (i : Nat) : List Nat := (List.replicate comps.length 0).set i 1

/-- path.c:1027-1086 `wglob_scandir_entry`; `search` is `wglob_search`, and `prev` are the frame of
the directory `path` and those of its parents. -/
def scandirEntry (search : Path → List Frame → Frame → Option (List Path)) (path : Path)
    (prev : List Frame) (active : List Nat) (onlyIfExisting : Bool) (name : Path) :
    Option (List Path) :=
  let r := entryLoop loc fs flags name (path ++ name) onlyIfExisting prev comps active 0
    (junk (path ++ name))
  match search (path ++ name ++ ['/']) prev ⟨r.2.1, r.2.2⟩ with
  | some deeper => some (r.1 ++ deeper)
  | none => none

/-- path.c:899-928: the body of the loop of `wglob_search_literal_each`, for an active literal
component, which is given by its index and its name. -/
def literalEach (search : Path → List Frame → Frame → Option (List Path)) (path : Path)
    (prev : List Frame) (l : Nat × Path) : Option (List Path) :=
  if l.1 + 1 < comps.length then
    search (path ++ l.2 ++ ['/']) prev ⟨onlyActive comps (l.1 + 1), junk (path ++ l.2)⟩
  else some (addResult fs (path ++ l.2) true false)

/-- path.c:878-885: the search in a directory, with 894-929 `wglob_search_literal_each`, 960-990
`wglob_search_literal_uniq` and 995-1018 `wglob_scandir`. -/
def searchDir (search : Path → List Frame → Frame → Option (List Path)) (path : Path)
    (prev : List Frame) (active : List Nat) : Option (List Path) :=
  match (if activeMatchers comps active then fs.readdir (if path = [] then ['.'] else path)
    else none) with
  | some names =>
    collect (scandirEntry loc fs junk comps flags search path prev active true [] ::
      names.map (scandirEntry loc fs junk comps flags search path prev active false))
  | none =>
    if (activeLiterals 0 comps active).length = 1 then
      collect ((activeLiterals 0 comps active).map (literalEach fs junk comps search path prev))
    else
      collect ((uniqueNames ((activeLiterals 0 comps active).map (·.2))).map
        (scandirEntry loc fs junk comps flags search path prev active true))

/-- path.c:841-886 `wglob_search`; `prev` are the frames of the parent directories.  `none` means
that the search is deeper than `fuel` (which does not happen: `C69_terminates`). -/
def search : Nat → Path → List Frame → Frame → Option (List Path)
  | 0, _, _, _ => none
  | fuel + 1, path, prev, t =>
    searchDir loc fs junk comps flags (search fuel) path
      (⟨activate comps t.active, t.st⟩ :: prev) (activate comps t.active)

end

/-- path.c:677-710 `wglob`: whether it succeeds, and what is added to the list.  `le` is the
collation order of `wcscoll`; `qsort` is modelled by a merge sort. -/
def wglob (loc : Locale) (fs : FS) (junk : Path → Stat) (le : Path → Path → Bool)
    (encodable : Path → Bool) (flags : GlobFlags) (pattern : Path) : Option (Bool × List Path) :=
  match parsePattern encodable flags [] pattern with
  | none => some (false, [])
  | some comps =>
    match search loc fs junk comps flags (256 * comps.length + 1) [] []
        ⟨onlyActive comps 0, junk []⟩ with
    | none => none
    | some results => some (true, if flags.nosort then results else results.mergeSort le)

end Yash.Glob
