/-!
# Model of the command history (`history.c`)

Values of entries are strings of characters; the conversions between wide and multibyte strings are taken to succeed. The history file is a list of
lines. What the file is locked for is atomic. `none` as a result means a failed assertion, following a link to `Histlist` as if it were an entry, or a
number that does not fit.
-/
set_option autoImplicit false

namespace Yash.History

abbrev Str := List Char

/-- `histentry_T` (history.h). A negative time is `none`. -/
structure Entry where
  number : Nat
  time : Option Nat
  value : Str
  deriving DecidableEq, Repr

/-- `histsize`, `max_number`, `histrmdup` (history.c:95-103) and `shopt_histspace`. -/
structure Params where
  size : Nat
  max : Nat
  rmdup : Nat
  space : Bool
  deriving Repr

/-- The loop in `set_histsize` (history.c:201-202); `fuel` bounds the number of rounds. -/
def growMax : Nat → Nat → Nat → Nat
  | 0, m, _ => m
  | fuel + 1, m, size => if m < 2 * size then growMax fuel (m * 10) size else m

/-- `set_histsize` (history.c:190-205). -/
def setHistsize (newsize : Nat) (P : Params) : Params :=
  let n := if newsize > 1000000 then 1000000 else newsize
  let n := if n = 0 then 1 else n
  { P with size := n, max := growMax 10 100000 n }

/-- The values at the start (history.c:98-103). -/
def Params.default (space : Bool) : Params := { size := 500, max := 100000, rmdup := 0, space := space }

/-- The settings of `HISTSIZE` and `HISTRMDUP` (history.c:954-968); `none` if the variable is not set or not a number that
fits in `unsigned long`. The number is converted to `unsigned`, which has 32 bits here. -/
def initParams (histsize rmdup : Option Nat) (space : Bool) : Params :=
  let P := match histsize with
    | some n => setHistsize (n % 4294967296) (.default space)
    | none => .default space
  match rmdup with
  | some n => { P with rmdup := if n ≤ P.size then n else P.size }
  | none => P

/-! ## The list, oldest entry first -/

/-- `need_remove_entry` (history.c:234-247). -/
def needRemove (P : Params) (number : Nat) (l : List Entry) : Bool :=
  match l.head?, l.getLast? with
  | some o, some n =>
    if l.length ≥ P.size then true
    else if o.number ≤ n.number then o.number ≤ number && number ≤ n.number
    else o.number ≤ number || number ≤ n.number
  | _, _ => false

/-- The loop in `new_entry` (history.c:216-217). -/
def makeRoom (P : Params) (number : Nat) : List Entry → List Entry
  | [] => []
  | e :: l => if needRemove P number (e :: l) then makeRoom P number l else e :: l

/-- `new_entry` (history.c:207-232) with its assertions. -/
def newEntry (P : Params) (number : Nat) (time : Option Nat) (line : Str) (l : List Entry) : Option (List Entry) :=
  if 0 < number && number ≤ P.max then
    let l := makeRoom P number l ++ [⟨number, time, line⟩]
    if l.length ≤ P.size then some l else none
  else none

/-- `remove_last_entry` (history.c:260-265). -/
def removeLast (l : List Entry) : List Entry := l.dropLast

/-- `renumber_all_entries` (history.c:267-278). -/
def renumber (l : List Entry) : List Entry := l.zipIdx.map fun (e, i) => { e with number := i + 1 }

/-- A result of searching: indices in the list; `none` is `Histlist` (history.c:123-125). -/
structure Found where
  prev : Option Nat
  next : Option Nat
  deriving DecidableEq, Repr

/-- Searching from the oldest entry (history.c:330-339). The loops do not look for the end of the list. -/
def fromOldest (number : Nat) (l : List Entry) : Option Found :=
  let r := (l.dropWhile fun e => number < e.number).dropWhile fun e => number > e.number
  match r with
  | [] => none
  | e :: _ =>
    let i := l.length - r.length
    some { next := some i, prev := if number ≠ e.number then (if i = 0 then none else some (i - 1)) else some i }

/-- Searching from the newest entry (history.c:341-350). -/
def fromNewest (number : Nat) (l : List Entry) : Option Found :=
  let r := (l.reverse.dropWhile fun e => number > e.number).dropWhile fun e => number < e.number
  match r with
  | [] => none
  | e :: _ =>
    let i := r.length - 1
    some { prev := some i, next := if number ≠ e.number then (if i + 1 < l.length then some (i + 1) else none) else some i }

/-- `search_entry_by_number` (history.c:295-353). -/
def search (P : Params) (number : Nat) (l : List Entry) : Option Found :=
  match l.head?, l.getLast? with
  | some o, some n =>
    let oldest := o.number
    let wrapped := n.number < oldest
    let nnumber := if wrapped && number ≤ n.number then number + P.max else number
    let nnewest := if wrapped then n.number + P.max else n.number
    if nnumber < oldest then some { prev := none, next := some 0 }
    else if nnumber > nnewest then some { prev := some (l.length - 1), next := none }
    else if 2 * (nnumber - oldest) < nnewest - oldest then fromOldest number l
    else fromNewest number l
  | _, _ => some { prev := none, next := none }

/-- `get_nth_newest_entry` (history.c:355-366). -/
def nthNewest (n : Nat) (l : List Entry) : Option Nat :=
  if l.length ≤ n then (if l.isEmpty then none else some 0)
  else if n = 0 then none
  else some (l.length - n)

/-- `search_entry_by_prefix` (history.c:368-377). -/
def searchPrefix (s : Str) (l : List Entry) : Option Nat := (l.reverse.findIdx? fun e => s.isPrefixOf e.value).map fun i => l.length - 1 - i

/-- `entry_is_newer` (history.c:394-406). -/
def entryIsNewer (l : List Entry) (i j : Nat) : Option Bool :=
  match l[i]?, l[j]?, l.head?, l.getLast? with
  | some e1, some e2, some o, some n =>
    some ((e1.number ≤ n.number && n.number < o.number && o.number ≤ e2.number) ||
      (e2.number ≤ e1.number && (o.number ≤ e2.number || e1.number ≤ n.number)))
  | _, _, _, _ => none

/-- `search_result_is_newer` (history.c:379-392). -/
def isNewer (l : List Entry) (a b : Found) : Option Bool :=
  match a.prev, a.next, b.prev, b.next with
  | none, _, _, _ => some false
  | _, _, _, none => some false
  | _, none, _, _ => some true
  | _, _, none, _ => some true
  | some ap, some an, some bp, some bn => do
    if (← entryIsNewer l ap bp) then some true else entryIsNewer l an bn

/-- `next_history_number` (history.c:1038-1050). -/
def nextNumber (P : Params) (l : List Entry) : Nat :=
  match l.getLast? with
  | none => 1
  | some n => if n.number + 1 > P.max then 1 else n.number + 1

/-- `remove_duplicates` (history.c:1115-1133): the list that is left, and the numbers of the entries that are removed, in this order. -/
def removeDuplicates (P : Params) (line : Str) (l : List Entry) : List Entry × List Nat :=
  let new := l.drop (l.length - P.rmdup)
  (l.take (l.length - P.rmdup) ++ new.filter fun e => e.value ≠ line, (new.reverse.filter fun e => e.value = line).map (·.number))

/-- `get_history_entry` (history.c:1135-1141). -/
def getEntry (P : Params) (number : Nat) (l : List Entry) : Option (Option Nat) := do
  let r ← search P number l
  some (if r.prev = r.next then r.prev else none)

/-! ## The built-in `fc` and the like -/

/-- `Exit_SUCCESS`, `Exit_FAILURE`. -/
inductive Status where
  | success | failure
  deriving DecidableEq, Repr

/-- An operand (history.c:1305-1314, 1329-1337): the number if it is one that is not zero, otherwise the string. -/
inductive Operand where
  | number (n : Int)
  | str (s : Str)
  deriving DecidableEq, Repr

/-- `fc_search_entry` (history.c:1362-1387). `-number` overflows if `number` is `INT_MIN`. -/
def fcSearch (P : Params) (intMax : Nat) (o : Operand) (l : List Entry) : Option Found :=
  match o with
  | .str s => some { prev := searchPrefix s l, next := searchPrefix s l }
  | .number n =>
    if n > 0 then do
      let r ← search P n.toNat l
      if r.prev.isSome || r.next.isSome then some r else none
    else if n = 0 then none
    else if n < -intMax then none
    else
      let k := (-n).toNat
      let next := nthNewest k l
      let r : Found := { next := next, prev := if k > l.length then none else next }
      if r.prev.isSome || r.next.isSome then some r else none

/-- The entries that the loop of `fc_print_entries` prints (history.c:1444-1474), from `i` to `j`; `fuel` bounds their number. `none` if the loop reaches
`Histlist`. -/
def printFrom (l : List Entry) (reverse : Bool) (j : Nat) : Nat → Nat → Option (List Entry)
  | 0, _ => none
  | fuel + 1, i => do
    let e ← l[i]?
    if i = j then some [e]
    else if reverse && i = 0 then none
    else
      let es ← printFrom l reverse j fuel (if reverse then i - 1 else i + 1)
      some (e :: es)

/-- `fc_print_entries` (history.c:1432-1476), without the formats. -/
def printEntries (l : List Entry) (first last : Nat) (reverse : Bool) : Option (List Entry) :=
  if reverse then printFrom l true first (l.length + 1) last else printFrom l false last (l.length + 1) first

/-- The second place (history.c:1329-1344). -/
def fcLast (P : Params) (intMax : Nat) (list : Bool) (last : Option Operand) (lfirst : Found) (l : List Entry) : Option Found :=
  match last with
  | some o => fcSearch P intMax o l
  | none => if list then fcSearch P intMax (.number (-1)) l else some lfirst

/-- The entry a range begins with (history.c:1352-1353). -/
def Found.first (r : Found) : Option Nat := if r.next.isNone then r.prev else r.next

/-- The entry a range ends with (history.c:1354-1355). -/
def Found.last (r : Found) : Option Nat := if r.prev.isNone then r.next else r.prev

/-- The end of `fc_builtin` (history.c:1346-1360). -/
def fcPrint (rev : Bool) (lfirst llast : Found) (l : List Entry) : Option (Status × List Entry) := do
  let swap ← isNewer l lfirst llast
  let efirst ← (if swap then llast else lfirst).first
  let elast ← (if swap then lfirst else llast).last
  let es ← printEntries l efirst elast (if swap then !rev else rev)
  some (.success, es)

/-- The main part of `fc_builtin` without `-s` (history.c:1296-1360): the status and the entries that are listed or edited. The list has been updated, or
this command has been removed from it, before. -/
def fcEntries (P : Params) (intMax : Nat) (list rev : Bool) (first last : Option Operand) (l : List Entry) : Option (Status × List Entry) :=
  if l.isEmpty then some (if list then .success else .failure, [])
  else do
    let lfirst ← fcSearch P intMax (first.getD (.number (if list then -16 else -1))) l
    if lfirst.prev.isNone && lfirst.next.isNone then some (.failure, [])
    else do
      let llast ← fcLast P intMax list last lfirst l
      if llast.prev.isNone && llast.next.isNone then some (.failure, []) else fcPrint rev lfirst llast l

/-- `fc -s` (history.c:1305-1327): the entry that is executed. -/
def fcSilent (P : Params) (intMax : Nat) (first : Option Operand) (l : List Entry) : Option (Status × Option Entry) :=
  if l.isEmpty then some (.failure, none)
  else do
    let r ← fcSearch P intMax (first.getD (.number (-1))) l
    if r.prev.isNone && r.next.isNone then some (.failure, none)
    else if r.prev ≠ r.next then some (.failure, none)
    else do
      let i ← r.prev
      let e ← l[i]?
      some (.success, some e)

/-- `history` with a number of entries, or without any (history.c:1714-1739). -/
def historyList (count : Nat) (l : List Entry) : Option (List Entry) :=
  match nthNewest count l with
  | none => some []
  | some i => printEntries l i (l.length - 1) false

/-- The entry that `history -d` removes (history.c:1767-1782); `none` inside if there is none. -/
def deleteTarget (P : Params) (intMax : Nat) (o : Operand) (l : List Entry) : Option (Option Nat) :=
  match o with
  | .str s => some (searchPrefix s l)
  | .number n =>
    if n ≥ 0 then getEntry P n.toNat l
    else some (nthNewest (if n < -intMax then intMax else (-n).toNat) l)

/-! ## The history file -/

/-- The functions of the C library, and `LINE_MAX`. `hex` is `wcstoul` and `wcstoull` with base 16: the number and the rest, or `none` if there is an error;
`long` is `xwcstol`; `intmax` is `wcstoimax`. `skipped` tells which lines `read_line` ignores (history.c:576-637). -/
structure Libc where
  hex : Str → Option (Nat × Str)
  long : Str → Option Nat
  intmax : Str → Option (Int × Str)
  xdigit : Char → Bool
  digit : Char → Bool
  space : Char → Bool
  blank : Char → Bool
  graph : Char → Bool
  lineMax : Nat
  longMax : Nat
  skipped : Str → Bool

/-- The digits of `printf`. -/
def digitChar (n : Nat) : Char := "0123456789ABCDEF".toList.getD n '?'

/-- `%X`, `%ld` and the like, for numbers that are not negative. -/
def numeral (base : Nat) (n : Nat) : Str :=
  if h : n < base ∨ base < 2 then [digitChar n] else numeral base (n / base) ++ [digitChar (n % base)]
termination_by n
decreasing_by
  have : ¬(n < base ∨ base < 2) := h
  exact Nat.div_lt_self (by omega) (by omega)

/-- The state of a shell: the list, `histfilepids`, `histfilerev` (`none` is -1), `histfilelines`, the position in the file in lines, whether the file is open,
and the ID of the shell. -/
structure Shell where
  list : List Entry := []
  pids : List Nat := []
  rev : Option Nat := none
  lines : Nat := 0
  pos : Nat := 0
  isOpen : Bool := false
  pid : Nat
  deriving DecidableEq

/-- The current time and `process_exists`, when a function is executed. -/
structure Moment where
  now : Nat
  alive : Nat → Bool

def signaturePrefix : Str := "#$# yash history v0 r".toList

/-- `read_signature` (history.c:639-668). -/
def readSignature (L : Libc) (file : List Str) : Option Nat :=
  match file.filter fun line => !L.skipped line with
  | [] => none
  | line :: _ =>
    if signaturePrefix.isPrefixOf line then
      let s := line.drop signaturePrefix.length
      if (s.head?.map L.digit).getD false then L.long s else none
    else none

/-- `add_histfile_pid` (history.c:420-432). -/
def addPid (pid : Nat) (pids : List Nat) : List Nat := if pid ∈ pids then pids else pids ++ [pid]

/-- `parse_history_entry` (history.c:730-766). -/
def parseEntry (L : Libc) (P : Params) (now : Nat) (line : Str) (l : List Entry) : Option (List Entry) :=
  match L.hex line with
  | none => some l
  | some (num, rest) =>
    if rest.isEmpty || num > P.max then some l
    else
      let (time, rest) : Option Nat × Str :=
        match rest with
        | ':' :: d :: ds =>
          if L.xdigit d then
            match L.hex (d :: ds) with
            | none => (none, (d :: ds).dropWhile L.xdigit)
            | some (t, r) => (if r.isEmpty then none else if t > now then some now else some t, r)
          else (none, rest)
        | _ => (none, rest)
      match rest with
      | c :: value => if L.space c then newEntry P num time value l else some l
      | [] => some l

/-- `parse_removed_entry` (history.c:768-788). -/
def parseRemoved (L : Libc) (P : Params) (s : Str) (l : List Entry) : Option (List Entry) :=
  if l.isEmpty || s.isEmpty then some l
  else
    match L.hex s with
    | none => some l
    | some (num, rest) =>
      if !(rest.head?.map L.space).getD true || num > P.max then some l
      else do
        let r ← search P num l
        match r.prev with
        | some i => some (if r.prev = r.next then l.eraseIdx i else l)
        | none => if r.next.isNone then none else some l

/-- `parse_process_id` (history.c:790-807). -/
def parsePid (L : Libc) (s : Str) (pids : List Nat) : List Nat :=
  if s.isEmpty then pids
  else
    match L.intmax s with
    | none => pids
    | some (n, rest) =>
      if !(rest.head?.map L.space).getD true then pids
      else if n > 0 then addPid n.toNat pids
      else if n < 0 then pids.filter (· ≠ (-n).toNat)
      else pids

/-- One line that is read by `read_history` (history.c:708-724). -/
def readLine (L : Libc) (P : Params) (now : Nat) (line : Str) (sh : Shell) : Option Shell :=
  let sh := { sh with lines := sh.lines + 1 }
  match line with
  | [] => some sh
  | c :: cs =>
    if c ∈ "0123456789ABCDEF".toList then (parseEntry L P now line sh.list).map fun l => { sh with list := l }
    else if c = 'c' then some { sh with list := removeLast sh.list }
    else if c = 'd' then (parseRemoved L P cs sh.list).map fun l => { sh with list := l }
    else if c = 'p' then some { sh with pids := parsePid L cs sh.pids }
    else some sh

/-- `read_history` (history.c:694-728). -/
def readLines (L : Libc) (P : Params) (now : Nat) : List Str → Shell → Option Shell
  | [], sh => some sh
  | line :: file, sh => if L.skipped line then readLines L P now file sh else (readLine L P now line sh).bind (readLines L P now file)

/-- `read_history_raw` (history.c:670-692). -/
def readRaw (L : Libc) (P : Params) : List Str → List Entry → Option (List Entry)
  | [], l => some l
  | line :: file, l => if L.skipped line then readRaw L P file l else (newEntry P (nextNumber P l) none line l).bind (readRaw L P file)

/-- The text of an entry (history.c:919-924). -/
def entryText (e : Entry) : Str :=
  match e.time with
  | some t => numeral 16 e.number ++ ':' :: numeral 16 t ++ ' ' :: e.value
  | none => numeral 16 e.number ++ ' ' :: e.value

/-- `wprintf_histfile`: a line is written to the end of the file, where the position is. -/
def writeLine (line : Str) (x : Shell × List Str) : Shell × List Str := ({ x.1 with pos := x.2.length + 1, lines := x.1.lines + 1 }, x.2 ++ [line])

/-- `write_history_entry` (history.c:907-926). -/
def writeEntry (L : Libc) (e : Entry) (x : Shell × List Str) : Shell × List Str := if e.value.length ≥ L.lineMax then x else writeLine (entryText e) x

/-- `write_signature` (history.c:889-905). -/
def writeSignature (L : Libc) (x : Shell × List Str) : Shell × List Str :=
  let rev := match x.1.rev with
    | none => 0
    | some r => if r = L.longMax then 0 else r + 1
  ({ x.1 with rev := some rev, lines := 0, pos := 1 }, [signaturePrefix ++ numeral 10 rev])

/-- `write_histfile_pids` (history.c:460-469). -/
def writePids (x : Shell × List Str) : Shell × List Str := x.1.pids.foldl (fun y pid => writeLine ('p' :: numeral 10 pid) y) x

/-- `refresh_file` (history.c:928-939). -/
def refreshFile (L : Libc) (x : Shell × List Str) : Shell × List Str := x.1.list.foldl (fun y e => writeEntry L e y) (writePids (writeSignature L x))

/-- `maybe_refresh_file` (history.c:863-873). -/
def maybeRefresh (L : Libc) (m : Moment) (x : Shell × List Str) : Shell × List Str :=
  if x.1.lines > 20 && x.1.lines / 2 ≥ x.1.list.length + x.1.pids.length then refreshFile L ({ x.1 with pids := x.1.pids.filter m.alive }, x.2) else x

/-- `close_history_file` (history.c:1023-1036). -/
def closeFile (sh : Shell) : Shell := { sh with isOpen := false }

/-- Reading in `update_history` (history.c:839-851): the new lines, or everything if the revision has changed. -/
def reread (L : Libc) (P : Params) (now rev : Nat) (file : List Str) (sh : Shell) : Option Shell :=
  if sh.rev = some rev then readLines L P now (file.drop sh.pos) sh
  else readLines L P now (file.drop 1) { sh with list := [], pids := [sh.pid], rev := some rev, lines := 0 }

/-- `update_history` (history.c:809-861). Errors of reading are left out. -/
def updateHistory (L : Libc) (P : Params) (m : Moment) (refresh : Bool) (x : Shell × List Str) : Option (Shell × List Str) :=
  if x.1.isOpen then
    match readSignature L x.2 with
    | none => some (closeFile x.1, x.2)
    | some rev => do
      let sh ← reread L P m.now rev x.2 x.1
      let y := ({ sh with pos := x.2.length }, x.2)
      some (if refresh then maybeRefresh L m y else y)
  else some x

/-- What is read when the shell starts (history.c:976-995). -/
def startReading (L : Libc) (P : Params) (m : Moment) (sh : Shell) (file : List Str) : Option (Shell × List Str) :=
  match readSignature L file with
  | none => (readRaw L P file []).map fun l => refreshFile L ({ sh with list := l }, file)
  | some rev => (readLines L P m.now (file.drop 1) { sh with rev := some rev }).map fun sh =>
      let sh := { sh with pos := file.length, pids := sh.pids.filter m.alive }
      if sh.pids.isEmpty then refreshFile L ({ sh with list := renumber sh.list }, file) else maybeRefresh L m (sh, file)

/-- `maybe_init_history` (history.c:944-1003): the part with the file, which has been opened; `file` is what it contains. -/
def initHistory (L : Libc) (P : Params) (m : Moment) (pid : Nat) (file : List Str) : Option (Shell × List Str) :=
  (startReading L P m { pid := pid, isOpen := true } file).map fun y =>
    writeLine ('p' :: numeral 10 pid) ({ y.1 with pids := addPid pid y.1.pids }, y.2)

/-- `add_history_line` (history.c:1084-1113). -/
def addLine (L : Libc) (P : Params) (m : Moment) (line : Str) (x : Shell × List Str) : Option (Shell × List Str) :=
  if line.any L.graph then do
    let (l, ds) := removeDuplicates P line x.1.list
    let x := (if x.1.isOpen then ds.foldl (fun y d => writeLine ('d' :: numeral 16 d) y) x else x)
    let n := nextNumber P l
    let l ← newEntry P n (some m.now) line l
    let x := ({ x.1 with list := l }, x.2)
    some (if x.1.isOpen then writeEntry L ⟨n, some m.now, line⟩ x else x)
  else some x

/-- The lines of a text (history.c:1071-1078). -/
def splitText : Str → List Str
  | [] => [[]]
  | c :: cs =>
    if c = '\n' then [] :: splitText cs
    else
      match splitText cs with
      | [] => [[c]]
      | line :: rest => (c :: line) :: rest

/-- Adding lines one after another. -/
def addLines (L : Libc) (P : Params) (m : Moment) : List Str → Shell × List Str → Option (Shell × List Str)
  | [], x => some x
  | line :: rest, x => (addLine L P m line x).bind (addLines L P m rest)

/-- `add_history` (history.c:1052-1082). -/
def addHistory (L : Libc) (P : Params) (m : Moment) (text : Str) (x : Shell × List Str) : Option (Shell × List Str) :=
  if P.space && (text.head?.map L.blank).getD false then some x else (updateHistory L P m true x).bind (addLines L P m (splitText text))

/-- `fc_remove_last_entry` (history.c:1400-1415). -/
def fcRemoveLast (L : Libc) (P : Params) (m : Moment) (x : Shell × List Str) : Option (Shell × List Str) := do
  let y ← updateHistory L P m true x
  let y := ({ y.1 with list := removeLast y.1.list }, y.2)
  some (if y.1.isOpen then writeLine ['c'] y else y)

/-- `fc_read_history` (history.c:1607-1629): the lines of a file are added. -/
def fcRead (L : Libc) (P : Params) (m : Moment) (lines : List Str) (x : Shell × List Str) : Option (Shell × List Str) := do
  let y ← updateHistory L P m false x
  let y ← addLines L P m (lines.filter fun line => !L.skipped line) y
  some (if y.1.isOpen then maybeRefresh L m y else y)

/-- `history_clear_all` (history.c:1741-1753). The time is not updated, which does not matter because the entries are removed. -/
def clearAll (L : Libc) (P : Params) (m : Moment) (x : Shell × List Str) : Option (Shell × List Str) := do
  let y ← updateHistory L P m false x
  let y := ({ y.1 with list := [] }, y.2)
  some (if y.1.isOpen then refreshFile L y else y)

/-- `history_delete` (history.c:1755-1797). -/
def delete (L : Libc) (P : Params) (intMax : Nat) (m : Moment) (o : Operand) (x : Shell × List Str) : Option (Status × Shell × List Str) := do
  let y ← updateHistory L P m true x
  let target ← deleteTarget P intMax o y.1.list
  match target with
  | none => some (.failure, y)
  | some i => do
    let e ← y.1.list[i]?
    let y := if y.1.isOpen then writeLine ('d' :: numeral 16 e.number) y else y
    some (.success, { y.1 with list := y.1.list.eraseIdx i }, y.2)

/-- `history_refresh_file` (history.c:1866-1879). -/
def refreshHistory (L : Libc) (P : Params) (m : Moment) (x : Shell × List Str) : Option (Shell × List Str) := do
  let y ← updateHistory L P m false x
  some (if y.1.isOpen then refreshFile L ({ y.1 with pids := y.1.pids.filter m.alive }, y.2) else y)

/-- `finalize_history` (history.c:1005-1021). -/
def finalize (L : Libc) (P : Params) (m : Moment) (x : Shell × List Str) : Option (Shell × List Str) :=
  if x.1.isOpen then do
    let y ← updateHistory L P m true x
    if y.1.isOpen then
      let z := writeLine ('p' :: '-' :: numeral 10 y.1.pid) y
      some (closeFile z.1, z.2)
    else some y
  else some x

/-- What `history -w` writes (history.c:1832-1864): the lines. -/
def writeHistory (l : List Entry) : List Str := l.map (·.value)

/-- What a shell does with its history. -/
inductive Command where
  /-- a command line is read, or `history -s` -/
  | add (text : Str)
  /-- `history -r`: the lines of the file -/
  | read (lines : List Str)
  /-- `fc` without `-l`, `history -s` -/
  | removeLast
  /-- `history -d` -/
  | delete (o : Operand)
  /-- `history -c` -/
  | clear
  /-- `history -F` -/
  | refresh
  /-- `fc -l`, `history`, line-editing (`fc_update_history`, `start_using_history`, history.c:1145-1160, 1389-1398) -/
  | use

/-- A command is performed. -/
def perform (L : Libc) (P : Params) (intMax : Nat) (m : Moment) : Command → Shell × List Str → Option (Shell × List Str)
  | .add text, x => addHistory L P m text x
  | .read lines, x => fcRead L P m lines x
  | .removeLast, x => fcRemoveLast L P m x
  | .delete o, x => (delete L P intMax m o x).map (·.2)
  | .clear, x => clearAll L P m x
  | .refresh, x => refreshHistory L P m x
  | .use, x => updateHistory L P m false x

/-! ## Several shells -/

/-- Shells that use the same history file, by their process numbers. -/
structure World where
  file : List Str
  shells : Nat → Option Shell
  clock : Nat

/-- What happens. While a shell performs a command it has locked the file (`lock_histfile`, history.c:545-574), so that events happen one after another. -/
inductive Event where
  /-- a shell performs a command -/
  | run (pid : Nat) (m : Moment) (c : Command)
  /-- a shell is started -/
  | join (pid : Nat) (m : Moment)
  /-- a shell ends -/
  | leave (pid : Nat) (m : Moment)
  /-- a shell is killed, when it is not using the file -/
  | crash (pid : Nat)

/-- The shells after one has changed. -/
def World.set (w : World) (pid : Nat) (sh : Option Shell) (file : List Str) (clock : Nat) : World :=
  { file := file, shells := fun q => if q = pid then sh else w.shells q, clock := clock }

/-- An event changes the file and the shell. -/
def step (L : Libc) (P : Params) (intMax : Nat) : Event → World → Option World
  | .run pid m c, w => do
    let sh ← w.shells pid
    let y ← perform L P intMax m c (sh, w.file)
    some (w.set pid (some y.1) y.2 m.now)
  | .join pid m, w => do
    let y ← initHistory L P m pid w.file
    some (w.set pid (some y.1) y.2 m.now)
  | .leave pid m, w => do
    let sh ← w.shells pid
    let y ← finalize L P m (sh, w.file)
    some (w.set pid none y.2 m.now)
  | .crash pid, w => some (w.set pid none w.file w.clock)

/-- Events one after another. -/
def steps (L : Libc) (P : Params) (intMax : Nat) : List Event → World → Option World
  | [], w => some w
  | e :: es, w => (step L P intMax e w).bind (steps L P intMax es)

end Yash.History
