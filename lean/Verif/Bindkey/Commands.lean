import Verif.Bindkey.Table
/-! # The table of editing commands (lineedit/keymap.c, lineedit/Makefile.in) -/
set_option autoImplicit false

namespace Yash.Bindkey

abbrev Str := List Char

/-- `strcmp`, for the bytes of the strings. -/
def strcmp : List Nat → List Nat → Ordering
  | [], [] => .eq
  | [], _ :: _ => .lt
  | _ :: _, [] => .gt
  | a :: as, b :: bs => if a < b then .lt else if b < a then .gt else strcmp as bs

/-- The bytes of a string of ASCII characters. -/
def bytes (s : Str) : List Nat := s.map Char.toNat

/-- `LC_ALL=C sort -k 1`: a line is inserted before the first one that is not smaller. -/
def insertLine (e : Str × Str) : List (Str × Str) → List (Str × Str)
  | [] => [e]
  | d :: ds => if strcmp (bytes (e.1 ++ ' ' :: e.2)) (bytes (d.1 ++ ' ' :: d.2)) = .gt then d :: insertLine e ds else e :: d :: ds

/-- The rule that makes lineedit/commands.in (lineedit/Makefile.in:47-53): each identifier is written with `-` for `_`, a space and the identifier; the
lines are sorted. -/
def lines : List (Str × Str) :=
  (identifiers.map fun i => (i.map fun c => if c = '_' then '-' else c, i)).foldr insertLine []

/-- The array `commands` (lineedit/keymap.c:49-54): names and functions. -/
def commands : List (Str × Str) := lines.map fun e => (e.1, function e.2)

/-- `bsearch` over the array from `l` to `u`, as the GNU C library does it; with `command_name_compare` (lineedit/keymap.c:507-511). -/
def bsearch (table : List (Str × Str)) (key : List Nat) : Nat → Nat → Nat → Option Str
  | 0, _, _ => none
  | fuel + 1, l, u =>
    if l < u then
      let index := (l + u) / 2
      match table[index]? with
      | none => none
      | some e =>
        match strcmp key (bytes e.1) with
        | .lt => bsearch table key fuel l index
        | .gt => bsearch table key fuel (index + 1) u
        | .eq => some e.2
    else none

/-- `get_command_from_name` (lineedit/keymap.c:497-505). -/
def getCommandFromName (name : List Nat) : Option Str := bsearch commands name (commands.length + 1) 0 commands.length

/-- `get_command_name` (lineedit/keymap.c:556-562). -/
def getCommandName (command : Str) : Option Str := (commands.find? fun e => e.2 = command).map (·.1)

end Yash.Bindkey
