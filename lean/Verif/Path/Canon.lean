/-!
# Model of path canonicalization (path.c)

A path is a wide string.  `isDir` is `is_directory` of the converted string (path.c:92-97); the
conversion never fails.
-/
set_option autoImplicit false

namespace Yash.Path

/-- The result of `canonicalize_path`: the new string, `NULL`, or a write behind the end of the
allocated memory. -/
inductive Canon where
  | ok (path : List Char)
  | notDir
  | overflow
deriving DecidableEq, Repr

/-- `not_dotdot` (path.c:1464-1469). -/
def notDotdot (p : List Char) : Bool :=
  match p with
  | '/' :: p => p != "..".toList
  | p => p != "..".toList

/-- Whether `path` begins with a dot-dot component (path.c:1425). -/
def atDotdot (path : List Char) : Bool :=
  match path with
  | ['.', '.'] => true
  | '.' :: '.' :: '/' :: _ => true
  | _ => false

theorem dropWhile_le (p : Char → Bool) (s : List Char) : (s.dropWhile p).length ≤ s.length := by
  induction s with
  | nil => exact Nat.le_refl _
  | cons c s ih =>
    simp only [List.dropWhile]
    split
    · exact Nat.le_trans ih (Nat.le_succ _)
    · exact Nat.le_refl _

/-- The main loop (path.c:1410-1456).  `result` holds the characters before `rp`, `clist` the offsets
of the components in `result`, the last one first, and `cap` is the number of characters that
`result` may have (there is room for one more character, the null). -/
def canonLoop (isDir : List Char → Bool) (cap : Nat) (path result : List Char) (clist : List Nat) :
    Canon :=
  match path with
  | [] => .ok result
  | c :: p =>
    if c = '/' then canonLoop isDir cap p result clist
    else if c = '.' && p.isEmpty then .ok result
    else if c = '.' && p.head? == some '/' then canonLoop isDir cap (p.drop 1) result clist
    else
      let other :=
        let result' := (if clist.isEmpty then result else result ++ ['/']) ++
          c :: p.takeWhile (· != '/')
        if result'.length ≤ cap then
          canonLoop isDir cap (p.dropWhile (· != '/')) result' (result.length :: clist)
        else .overflow
      match clist with
      | [] => other
      | prev :: clist' =>
        if atDotdot (c :: p) && notDotdot (result.drop prev) then
          if isDir result then canonLoop isDir cap (p.drop 1) (result.take prev) clist' else .notDir
        else other
termination_by path.length
decreasing_by
  all_goals simp only [List.length_cons, List.length_drop]
  all_goals first | omega | skip
  all_goals have := dropWhile_le (· != '/') p
  all_goals omega

/-- The slashes at the beginning (path.c:1399-1408). -/
def leading (path : List Char) : List Char × List Char :=
  match path with
  | '/' :: '/' :: '/' :: p => (['/'], '/' :: p)
  | '/' :: '/' :: p => (['/', '/'], p)
  | '/' :: p => (['/'], p)
  | p => ([], p)

/-- `canonicalize_path` (path.c:1396-1462). -/
def canonicalize (isDir : List Char → Bool) (path : List Char) : Canon :=
  canonLoop isDir path.length (leading path).2 (leading path).1 []

/-- `starts_with_root_parent` (path.c:1485-1489). -/
def startsWithRootParent (path : List Char) : Bool :=
  match path with
  | ['/', '.', '.'] => true
  | '/' :: '.' :: '.' :: '/' :: _ => true
  | _ => false

/-- The loop of `canonicalize_path_ex` (path.c:1476-1478): one pass after another while the condition
holds. -/
def removeRootParents : List Char → List Char
  | '/' :: '.' :: '.' :: rest =>
    if startsWithRootParent ('/' :: '.' :: '.' :: rest) then removeRootParents rest
    else '/' :: '.' :: '.' :: rest
  | path => path

/-- `canonicalize_path_ex` (path.c:1473-1482); `sameRoot` is `is_same_file("/", "/..")`. -/
def canonicalizeEx (sameRoot : Bool) (path : List Char) : List Char :=
  if startsWithRootParent path && sameRoot then
    let path' := removeRootParents path
    if path'.isEmpty then ['/'] else path'
  else path

/-- `is_normalized_path` (path.c:213-227): the loop, at the beginning of a component. -/
def isNormalizedAt (path : List Char) : Bool :=
  match path with
  | [] => true
  | c :: p =>
    if c = '.' && (p.isEmpty || p.head? == some '/' ||
        (p.head? == some '.' && ((p.drop 1).isEmpty || (p.drop 1).head? == some '/'))) then false
    else
      match _h : (c :: p).dropWhile (· != '/') with
      | [] => true
      | _ :: rest => isNormalizedAt rest
termination_by path.length
decreasing_by
  have := dropWhile_le (· != '/') (c :: p)
  rw [_h] at this
  simp only [List.length_cons] at this ⊢
  omega

end Yash.Path
