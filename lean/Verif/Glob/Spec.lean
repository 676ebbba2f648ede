import Verif.Glob.Fs
import Verif.Fnmatch.Spec
/-!
# What pathname expansion means

How a pattern is divided into components and which pathnames a list of components finds.  Nothing
here refers to the model of the shell.
-/
set_option autoImplicit false

namespace Yash.Glob.Spec

open Fnmatch (Locale)
open Fnmatch.Spec (Atom Reads Matches PlausiblePattern unquoted)

/-- A component of a pattern: a name, a pattern for names, or a search for directories at any depth.
In the search, symbolic links are followed if `follow`, and directories whose names begin with a
period are searched if `hidden`. -/
inductive Part where
  | name (n : Path)
  | pattern (as : List Atom)
  | descend (follow hidden : Bool)

/-- The components of the `extendedglob` option. -/
inductive Keyword : Path → Bool → Bool → Prop
  | plain : Keyword ['*', '*'] false false
  | follow : Keyword ['*', '*', '*'] true false
  | hidden : Keyword ['.', '*', '*'] false true
  | both : Keyword ['.', '*', '*', '*'] true true

/-- A component that is not a search for directories.  `isPattern` tells which components are
regarded as patterns; the others are names. -/
inductive Ordinary (isPattern : Path → Bool) : Path → Part → Prop
  | pattern (t : Path) (as : List Atom) : isPattern t = true → Reads t as →
      Ordinary isPattern t (.pattern as)
  | name (t : Path) : isPattern t = false → Ordinary isPattern t (.name (unquoted t))

/-- A pattern is divided at the slashes.  A search for directories must be followed by another
component. -/
inductive Divides (isPattern : Path → Bool) (extended : Bool) : Path → List Part → Prop
  | last (t : Path) (part : Part) : '/' ∉ t → Ordinary isPattern t part →
      Divides isPattern extended t [part]
  | ordinary (t rest : Path) (part : Part) (parts : List Part) : '/' ∉ t →
      (extended = true → ∀ f h, ¬ Keyword t f h) → Ordinary isPattern t part →
      Divides isPattern extended rest parts →
      Divides isPattern extended (t ++ '/' :: rest) (part :: parts)
  | keyword (t rest : Path) (f h : Bool) (parts : List Part) :
      extended = true → Keyword t f h → Divides isPattern extended rest parts →
      Divides isPattern extended (t ++ '/' :: rest) (.descend f h :: parts)

/-- What the options tell about matching. -/
structure Options where
  /-- upper-case and lower-case letters are the same in patterns -/
  icase : Bool
  /-- patterns may match a period at the beginning of a name -/
  dotglob : Bool
  /-- directories that match a pattern are shown with a slash -/
  markdirs : Bool

/-- Whether a pattern matches a file name. -/
def NameMatches (loc : Locale) (o : Options) (as : List Atom) (n : Path) : Prop :=
  n ≠ [] ∧ '/' ∉ n ∧ Matches loc o.icase as n ∧
    (o.dotglob = false → ∀ n', n = '.' :: n' → ∃ as', as = .lit '.' :: as')

/-- The directory that contains the files whose pathnames begin with `p`. -/
def dirOf (p : Path) : Path := if p = [] then ['.'] else p

/-- A name is listed in the directory. -/
def Listed (fs : FS) (p n : Path) : Prop := ∃ names, fs.readdir (dirOf p) = some names ∧ n ∈ names

/-- The pathname refers to a file. -/
def Exists (fs : FS) (p : Path) : Prop := ∃ st, fs.stat p = some st

/-- The name is listed, though it may not refer to a file, or it refers to a file, though the
directory may not be readable. -/
def Weak (fs : FS) (p n : Path) : Prop := Listed fs p n ∨ Exists fs (p ++ n)

/-- The pathname refers to a directory. -/
def IsDir (fs : FS) (p : Path) : Prop := ∃ st, fs.stat p = some st ∧ st.dir = true

/-- A directory that is to be searched. -/
def Enters (fs : FS) (follow hidden : Bool) (p n : Path) (st : Stat) : Prop :=
  n ≠ [] ∧ '/' ∉ n ∧ (hidden = false → ∀ n', n ≠ '.' :: n') ∧ n ≠ ['.'] ∧ n ≠ ['.', '.'] ∧
  (if follow then fs.stat (p ++ n) else fs.lstat (p ++ n)) = some st ∧ st.dir = true

/-- How a pathname that matches a pattern is shown. -/
inductive Shown (fs : FS) (o : Options) (p : Path) : Path → Prop
  | marked : o.markdirs = true → IsDir fs p → Shown fs o p (p ++ ['/'])
  | plain : ¬ (o.markdirs = true ∧ IsDir fs p) → Shown fs o p p

/-- `Finds … parts p r`: below the directory `p` (an empty pathname or one that ends with a slash),
the components find the pathname `r`.  `listed p n` and `exists_ p n` are what is required of the
names that patterns match, and of a file the last component names. -/
inductive Finds (loc : Locale) (fs : FS) (o : Options) (listed exists_ : Path → Path → Prop) :
    List Part → Path → Path → Prop
  | lastName (n p : Path) : exists_ p n → Finds loc fs o listed exists_ [.name n] p (p ++ n)
  | name (n p r : Path) (part : Part) (parts : List Part) :
      Finds loc fs o listed exists_ (part :: parts) (p ++ n ++ ['/']) r →
      Finds loc fs o listed exists_ (.name n :: part :: parts) p r
  | lastPattern (as : List Atom) (n p r : Path) :
      listed p n → NameMatches loc o as n → Shown fs o (p ++ n) r →
      Finds loc fs o listed exists_ [.pattern as] p r
  | pattern (as : List Atom) (n p r : Path) (part : Part) (parts : List Part) :
      listed p n → NameMatches loc o as n →
      Finds loc fs o listed exists_ (part :: parts) (p ++ n ++ ['/']) r →
      Finds loc fs o listed exists_ (.pattern as :: part :: parts) p r
  | here (f h : Bool) (p r : Path) (parts : List Part) :
      Finds loc fs o listed exists_ parts p r →
      Finds loc fs o listed exists_ (.descend f h :: parts) p r
  | deeper (f h : Bool) (n p r : Path) (st : Stat) (parts : List Part) :
      listed p n → Enters fs f h p n st →
      Finds loc fs o listed exists_ (.descend f h :: parts) (p ++ n ++ ['/']) r →
      Finds loc fs o listed exists_ (.descend f h :: parts) p r

/-- The same, with the directories that have been entered since the last component that is not a
search for directories: the search does not enter a directory that is one of them, nor more than
254 of them. -/
inductive FindsOnce (loc : Locale) (fs : FS) (o : Options) (listed exists_ : Path → Path → Prop) :
    List Part → Path → List Path → Path → Prop
  | lastName (n p : Path) (ds : List Path) : exists_ p n →
      FindsOnce loc fs o listed exists_ [.name n] p ds (p ++ n)
  | name (n p r : Path) (ds : List Path) (part : Part) (parts : List Part) :
      FindsOnce loc fs o listed exists_ (part :: parts) (p ++ n ++ ['/']) [] r →
      FindsOnce loc fs o listed exists_ (.name n :: part :: parts) p ds r
  | lastPattern (as : List Atom) (n p r : Path) (ds : List Path) :
      listed p n → NameMatches loc o as n → Shown fs o (p ++ n) r →
      FindsOnce loc fs o listed exists_ [.pattern as] p ds r
  | pattern (as : List Atom) (n p r : Path) (ds : List Path) (part : Part) (parts : List Part) :
      listed p n → NameMatches loc o as n →
      FindsOnce loc fs o listed exists_ (part :: parts) (p ++ n ++ ['/']) [] r →
      FindsOnce loc fs o listed exists_ (.pattern as :: part :: parts) p ds r
  | here (f h : Bool) (p r : Path) (ds : List Path) (parts : List Part) :
      FindsOnce loc fs o listed exists_ parts p ds r →
      FindsOnce loc fs o listed exists_ (.descend f h :: parts) p ds r
  | deeper (f h : Bool) (n p r : Path) (st : Stat) (ds : List Path) (parts : List Part) :
      listed p n → Enters fs f h p n st →
      (∀ d ∈ ds, ∀ st', fs.stat d = some st' → ¬ (st'.dev = st.dev ∧ st'.ino = st.ino)) →
      ds.length < 254 →
      FindsOnce loc fs o listed exists_ (.descend f h :: parts) (p ++ n ++ ['/']) ((p ++ n) :: ds) r →
      FindsOnce loc fs o listed exists_ (.descend f h :: parts) p ds r

/-- What is assumed of a file system. -/
structure Sane (fs : FS) : Prop where
  /-- a directory lists names, and each once -/
  names : ∀ p ns, fs.readdir p = some ns → ns.Nodup ∧ ∀ n ∈ ns, n ≠ [] ∧ '/' ∉ n
  /-- a directory that can be read lists every name that can be used in a pathname -/
  complete : ∀ p ns n q, fs.readdir (dirOf p) = some ns → n ≠ [] → '/' ∉ n →
    (p = [] ∨ ∃ p', p = p' ++ ['/']) → (q = [] ∨ ∃ q', q = '/' :: q') →
    Exists fs (p ++ n ++ q) → n ∈ ns
  /-- what can be read exists -/
  read : ∀ p ns, fs.readdir p = some ns → Exists fs p
  /-- a file is in something that exists -/
  parent : ∀ p q, p ≠ [] → Exists fs (p ++ '/' :: q) → Exists fs p
  /-- a directory is not a symbolic link -/
  notLink : ∀ p st, fs.lstat p = some st → st.dir = true → fs.stat p = some st
  /-- a file is a directory or not -/
  kind : ∀ p q st st', (fs.stat p = some st ∨ fs.lstat p = some st) →
    (fs.stat q = some st' ∨ fs.lstat q = some st') → st.dev = st'.dev → st.ino = st'.ino →
    st.dir = st'.dir

/-- A file system in which all directories can be read and searched, and all names refer to
files. -/
def Tame (fs : FS) : Prop :=
  ∀ p n, (p = [] ∨ ∃ p', p = p' ++ ['/']) → n ≠ [] → '/' ∉ n → (Listed fs p n ↔ Exists fs (p ++ n))

/-- A directory that is found by going down from another one. -/
inductive Inside (fs : FS) (follow : Bool) (d : Path) : Path → Stat → Prop
  | one (n : Path) (st : Stat) : Enters fs follow true (d ++ ['/']) n st →
      Inside fs follow d (d ++ ['/'] ++ n) st
  | more (d' n : Path) (st st' : Stat) : Inside fs follow d d' st' →
      Enters fs follow true (d' ++ ['/']) n st → Inside fs follow d (d' ++ ['/'] ++ n) st

/-- No directory is found by going down from itself. -/
def NoLoop (fs : FS) (follow : Bool) : Prop :=
  ∀ d d' st st', fs.stat d = some st → Inside fs follow d d' st' →
    ¬ (st.dev = st'.dev ∧ st.ino = st'.ino)

/-- The number of slashes in a pathname. -/
def slashes (p : Path) : Nat := (p.filter (· = '/')).length

end Yash.Glob.Spec
