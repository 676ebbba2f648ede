/-!
# What canonicalization of paths means

Written without the definitions of the model.
-/
set_option autoImplicit false

namespace Yash.Path.Spec

/-- A component of a path. -/
abbrev Comp := List Char

/-- The components of a path: the longest pieces without slashes. -/
def comps : List Char → List Comp
  | [] => []
  | [c] => if c = '/' then [] else [[c]]
  | c :: d :: s =>
    if c = '/' then comps (d :: s)
    else if d = '/' then [c] :: comps (d :: s)
    else
      match comps (d :: s) with
      | [] => [[c]]
      | x :: xs => (c :: x) :: xs

/-- What the slashes at the beginning mean: exactly two of them are different from one, three or more
are the same as one (POSIX). -/
def root : List Char → List Char
  | '/' :: '/' :: '/' :: _ => ['/']
  | '/' :: '/' :: _ => ['/', '/']
  | '/' :: _ => ['/']
  | _ => []

/-- The path with the given root and components, with single slashes between them. -/
def render (r : List Char) (cs : List Comp) : List Char := r ++ List.intercalate ['/'] cs

def dot : Comp := ['.']
def dotdot : Comp := ['.', '.']

/-- One simplification: a dot component vanishes, or a dot-dot component together with the one before
it, which is neither dot nor dot-dot. -/
inductive Step : List Comp → List Comp → Prop where
  | dot (a b : List Comp) : Step (a ++ dot :: b) (a ++ b)
  | dotdot (a b : List Comp) (x : Comp) (h1 : x ≠ dot) (h2 : x ≠ dotdot) :
    Step (a ++ x :: dotdot :: b) (a ++ b)

/-- Any number of simplifications. -/
inductive Steps : List Comp → List Comp → Prop where
  | refl (a : List Comp) : Steps a a
  | step (a b c : List Comp) : Steps a b → Step b c → Steps a c

/-- Nothing is left to simplify: no dot components, and dot-dot components only at the beginning. -/
def Normal (cs : List Comp) : Prop :=
  ∃ k : Nat, ∃ rest : List Comp, cs = List.replicate k dotdot ++ rest ∧
    ∀ x ∈ rest, x ≠ dot ∧ x ≠ dotdot

/-- `out` is what remains of `cs`. -/
def Simplified (cs out : List Comp) : Prop := Steps cs out ∧ Normal out

/-! ## File systems -/

/-- A file system as the system calls show it: `walk` goes from a directory to an entry of it
(following symbolic links), `start` gives the directory that the slashes at the beginning stand for. -/
structure FileSystem (N : Type) where
  walk : N → Comp → Option N
  start : List Char → Option N
  isDir : N → Bool
  walk_dir : ∀ n c m, walk n c = some m → isDir n = true
  start_dir : ∀ r n, start r = some n → isDir n = true
  walk_dot : ∀ n, isDir n = true → walk n dot = some n
  start_rel : start [] = none

/-- The file at the end of a sequence of components. -/
def follow {N : Type} (fs : FileSystem N) (n : N) : List Comp → Option N
  | [] => some n
  | c :: cs => (fs.walk n c).bind fun m => follow fs m cs

/-- The directory that a path denotes for a process working in `cwd`. -/
def Denotes {N : Type} (fs : FileSystem N) (cwd : N) (path : List Char) (n : N) : Prop :=
  path ≠ [] ∧ fs.isDir n = true ∧ fs.isDir cwd = true ∧
    follow fs ((fs.start (root path)).getD cwd) (comps path) = some n

/-- There are no symbolic links to directories: the parent of an entry that is a directory is the
directory that has the entry. -/
def NoLinks {N : Type} (fs : FileSystem N) : Prop :=
  ∀ n c m, c ≠ dot → c ≠ dotdot → fs.walk n c = some m → fs.isDir m = true →
    fs.walk m dotdot = some n

end Yash.Path.Spec
