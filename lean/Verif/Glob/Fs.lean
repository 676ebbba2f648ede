/-!
# What the shell can observe of the file system

Pathnames are lists of characters.  Shared by the model of pathname expansion and by its
specification, like the locale in the model of pattern matching.
-/
set_option autoImplicit false

namespace Yash.Glob

abbrev Path := List Char

/-- What `stat` tells about a file: whether it is a directory, and which file it is. -/
structure Stat where
  dir : Bool
  dev : Nat
  ino : Nat
  deriving DecidableEq

/-- A file system that does not change during the expansion. -/
structure FS where
  /-- `opendir` and `readdir`: the names in a directory, or `none` if it cannot be read. -/
  readdir : Path → Option (List Path)
  /-- `stat`: symbolic links are followed. -/
  stat : Path → Option Stat
  /-- `lstat`: symbolic links are not followed. -/
  lstat : Path → Option Stat

end Yash.Glob
