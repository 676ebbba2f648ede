/-!
# Mail checking (mail.c)

Paths of files are lists of bytes. The time is `time(NULL)`, the files are what `stat` says about each path during one check, and the parsing of integers is a
parameter. What is printed is the list of messages; the expansion of a message (`print_message`, mail.c:304-312) is not modelled.
-/
set_option autoImplicit false

namespace Yash.Mail

abbrev Str := List Char
abbrev Path := List Nat

/-- The modification time in seconds and nanoseconds. -/
structure Time where
  sec : Int
  nsec : Int
deriving DecidableEq, Repr

/-- The members of `struct stat` that are used. -/
structure Info where
  size : Nat
  mtime : Time
deriving DecidableEq, Repr

/-- What `get_variable` gives for `MAILPATH`. -/
inductive Value where
  | notFound
  | scalar (s : Str)
  | array (l : List Str)
deriving DecidableEq, Repr

/-- `xwcstol` (none if it fails), `sb_wccat` over a string, and `malloc_wcstombs`. -/
structure Config where
  integer : Str → Option Int
  encode : Str → Path
  wcstombs : Str → Option Path

/-- What a call of `check_mail` finds: the variables, the clock (none if `time` fails), the files and the option `posixly_correct`. -/
structure Event where
  mailcheck : Option Str
  mailpath : Value
  mail : Option Str
  now : Option Int
  stat : Path → Option Info
  posix : Bool

/-- `mailfiles` (mail.c:75; none if its capacity is zero) and `lastchecktime` (mail.c:78). -/
structure State where
  files : Option (List (Path × Time))
  last : Int
deriving DecidableEq, Repr

/-- The state in which the shell begins. -/
def State.initial : State := ⟨none, 0⟩

inductive Message where
  | newMail
  | text (m : Str)
deriving DecidableEq, Repr

/-- `activate` (mail.c:90-94). -/
def activate (s : State) : State := { s with files := some (s.files.getD []) }

/-- `inactivate` (mail.c:97-104). -/
def inactivate (s : State) : State :=
  match s.files with
  | some _ => ⟨none, 0⟩
  | none => s

/-- `is_time_to_check_mail` (mail.c:110-131). -/
def isTime (C : Config) (e : Event) (s : State) : State × Bool :=
  match e.mailcheck with
  | none => (inactivate s, false)
  | some [] => (inactivate s, false)
  | some v =>
    match C.integer v with
    | none => (inactivate s, false)
    | some interval =>
      if interval < 0 then (inactivate s, false)
      else
        match e.now with
        | none => (s, false)
        | some now => if now - s.last < interval then (s, false) else ({ s with last := now }, true)

/-- The loop of `handle_mailpath` (mail.c:179-210): the components. In the code each of them is handled as soon as it is found. -/
def components (start : Str) : Str → List Str
  | [] => [start.reverse]
  | ':' :: rest => start.reverse :: components [] rest
  | ['\\'] => [('\\' :: start).reverse]
  | '\\' :: c :: rest => components (c :: '\\' :: start) rest
  | c :: rest => components (c :: start) rest

/-- The loop of `handle_mailpath_element` (mail.c:213-238): the path, and what is left at the label `check`. -/
def parseElement (path : Str) : Str → Str × Str
  | [] => (path.reverse, [])
  | '%' :: rest => (path.reverse, rest)
  | ['\\'] => (path.reverse, [])
  | '\\' :: c :: rest => parseElement (c :: path) rest
  | c :: rest => parseElement (c :: path) rest

/-- `ht_get` and `ht_set` of the table (C01). -/
def getFile (files : List (Path × Time)) (p : Path) : Option Time := (files.find? fun f => f.1 == p).map (·.2)
def setFile (files : List (Path × Time)) (p : Path) (t : Time) : List (Path × Time) := (p, t) :: files.filter fun f => f.1 != p

/-- `is_update` (mail.c:251-302). -/
def isUpdate (e : Event) (p : Path) (files : List (Path × Time)) : List (Path × Time) × Bool :=
  let st := (e.stat p).getD ⟨0, ⟨0, 0⟩⟩
  let result :=
    match getFile files p with
    | some t => (decide (st.size > 0) || e.posix) && decide (st.mtime.sec ≠ 0) && (decide (st.mtime.sec ≠ t.sec) || decide (st.mtime.nsec ≠ t.nsec))
    | none => false
  (setFile files p st.mtime, result)

/-- `handle_mailpath_element` (mail.c:213-248). -/
def handleElement (C : Config) (e : Event) (s : Str) (files : List (Path × Time)) : List (Path × Time) × List Message :=
  let (path, rest) := parseElement [] s
  let (files, new) := isUpdate e (C.encode path) files
  (files, if new then [if rest.isEmpty then .newMail else .text rest] else [])

/-- The calls of `handle_mailpath_element` one after another. -/
def handleAll (C : Config) (e : Event) : List Str → List (Path × Time) → List (Path × Time) × List Message
  | [], files => (files, [])
  | s :: ss, files =>
    let (files, out) := handleElement C e s files
    let (files, out') := handleAll C e ss files
    (files, out ++ out')

/-- `check_mail_and_print_message` (mail.c:134-174). -/
def checkAndPrint (C : Config) (e : Event) (s : State) : State × List Message :=
  match e.mailpath with
  | .scalar v =>
    let s := activate s
    let (files, out) := handleAll C e (components [] v) (s.files.getD [])
    ({ s with files := some files }, out)
  | .array l =>
    let s := activate s
    let (files, out) := handleAll C e l (s.files.getD [])
    ({ s with files := some files }, out)
  | .notFound =>
    match e.mail with
    | some m =>
      let s := activate s
      match C.wcstombs m with
      | some p =>
        let (files, new) := isUpdate e p (s.files.getD [])
        ({ s with files := some files }, if new then [.newMail] else [])
      | none => (s, [])
    | none => (inactivate s, [])

/-- `check_mail` (mail.c:83-87). -/
def checkMail (C : Config) (e : Event) (s : State) : State × List Message :=
  let (s, due) := isTime C e s
  if due then checkAndPrint C e s else (s, [])

end Yash.Mail
