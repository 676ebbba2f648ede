import Verif.Mail.Model
/-!
# Specification of mail checking
-/
set_option autoImplicit false

namespace Yash.Mail.Spec

/-- How a path is written in `MAILPATH`: colons, percent signs and backslashes are written after a backslash, others may be. -/
inductive PathText : Str → Str → Prop
  | nil : PathText [] []
  | chr {c : Char} {p t : Str} : c ≠ ':' → c ≠ '%' → c ≠ '\\' → PathText p t → PathText (c :: p) (c :: t)
  | esc {c : Char} {p t : Str} : PathText p t → PathText (c :: p) ('\\' :: c :: t)

/-- Messages in which every colon is written after a backslash, which belongs to the message. -/
inductive MessageText : Str → Prop
  | nil : MessageText []
  | chr {c : Char} {m : Str} : c ≠ ':' → c ≠ '\\' → MessageText m → MessageText (c :: m)
  | esc {c : Char} {m : Str} : MessageText m → MessageText ('\\' :: c :: m)

/-- A path and the message for it, if any. -/
abbrev Element := Str × Option Str

/-- How an element is written: the message follows a percent sign. -/
inductive ElementText : Element → Str → Prop
  | plain {p t : Str} : PathText p t → ElementText (p, none) t
  | message {p t m : Str} : PathText p t → MessageText m → ElementText (p, some m) (t ++ '%' :: m)

/-- How elements are written: colons separate them. -/
inductive Writes : List Element → Str → Prop
  | one {x : Element} {t : Str} : ElementText x t → Writes [x] t
  | cons {x : Element} {xs : List Element} {t ts : Str} : ElementText x t → Writes xs ts → Writes (x :: xs) (t ++ ':' :: ts)

/-- The elements of an array: the elements of arrays are not split at colons. -/
inductive WritesArray : List Element → List Str → Prop
  | nil : WritesArray [] []
  | cons {x : Element} {xs : List Element} {t : Str} {ts : List Str} : ElementText x t → WritesArray xs ts → WritesArray (x :: xs) (t :: ts)

/-- The message that is printed if there is news. -/
def messageOf : Option Str → Message
  | none => .newMail
  | some m => if m = [] then .newMail else .text m

/-- The files that are to be looked at, with their messages: `MAILPATH` is used if it is set, and otherwise `MAIL`. -/
inductive Looks (C : Config) (e : Event) : List (Path × Message) → Prop
  | scalar {v : Str} {xs : List Element} : e.mailpath = .scalar v → Writes xs v → Looks C e (xs.map fun x => (C.encode x.1, messageOf x.2))
  | array {l : List Str} {xs : List Element} : e.mailpath = .array l → WritesArray xs l → Looks C e (xs.map fun x => (C.encode x.1, messageOf x.2))
  | mail {m : Str} {p : Path} : e.mailpath = .notFound → e.mail = some m → C.wcstombs m = some p → Looks C e [(p, .newMail)]

/-- `MAILCHECK` is a number that is not negative. -/
def Interval (C : Config) (e : Event) (n : Int) : Prop := 0 ≤ n ∧ ∃ v, v ≠ [] ∧ e.mailcheck = some v ∧ C.integer v = some n

/-- The time of the last check is long enough ago. -/
def Due (C : Config) (e : Event) (s : State) : Prop := ∃ n t, Interval C e n ∧ e.now = some t ∧ n ≤ t - s.last

/-- Mail checking is turned off: `MAILCHECK` is not such a number, or neither variable is set when it is time to check. -/
def Off (C : Config) (e : Event) (s : State) : Prop := (¬∃ n, Interval C e n) ∨ (Due C e s ∧ e.mailpath = .notFound ∧ e.mail = none)

/-- The modification time that was seen when the file was last looked at. -/
def seen (s : State) (p : Path) : Option Time := (s.files.getD []).lookup p

/-- The modification time now; files that do not exist have the time 0. -/
def mtime (e : Event) (p : Path) : Time :=
  match e.stat p with
  | some i => i.mtime
  | none => ⟨0, 0⟩

/-- There is something in the file (or it exists, in the POSIX mode). -/
def HasMail (e : Event) (p : Path) : Prop := ∃ i, e.stat p = some i ∧ i.mtime.sec ≠ 0 ∧ (0 < i.size ∨ e.posix = true)

/-- The file has changed since it was looked at. -/
def News (e : Event) (s : State) (p : Path) : Prop := HasMail e p ∧ ∃ t, seen s p = some t ∧ t ≠ mtime e p

/-- A file that is listed more than once is looked at more than once, but only the first time matters. -/
def firsts : List (Path × Message) → List (Path × Message)
  | [] => []
  | x :: xs => x :: (firsts xs).filter fun y => decide (y.1 ≠ x.1)

/-- The state after some calls. -/
def runAll (C : Config) : List Event → State → State
  | [], s => s
  | e :: es, s => runAll C es (checkMail C e s).1

/-- Calls during which mail checking is not turned off and the file is not looked at. -/
def Elsewhere (C : Config) (p : Path) : List Event → State → Prop
  | [], _ => True
  | e :: es, s => ¬Off C e s ∧ (Due C e s → ∃ els, Looks C e els ∧ p ∉ els.map (·.1)) ∧ Elsewhere C p es (checkMail C e s).1

/-- Calls that come too early. -/
def Early (C : Config) : List Event → State → Prop
  | [], _ => True
  | e :: es, s => (∃ n, Interval C e n) ∧ ¬Due C e s ∧ Early C es (checkMail C e s).1

end Yash.Mail.Spec
