/-!
# What the operands of umask mean

Written without the definitions of the model, after doc/_umask.txt.
-/
set_option autoImplicit false

namespace Yash.Path.Spec

inductive Class where
  | owner | group | others
deriving DecidableEq, Repr

inductive Right where
  | read | write | exec
deriving DecidableEq, Repr

/-- Which permissions are allowed, that is, not in the mask. -/
abbrev Allowed := Class → Right → Bool

/-- The place of a permission in a mask: 0400 is read by the owner, 0001 execute by others. -/
def place : Class → Right → Nat
  | .owner, .read => 8
  | .owner, .write => 7
  | .owner, .exec => 6
  | .group, .read => 5
  | .group, .write => 4
  | .group, .exec => 3
  | .others, .read => 2
  | .others, .write => 1
  | .others, .exec => 0

/-- The permissions that a mask allows. -/
def allowedBy (mask : BitVec 32) : Allowed := fun c r => !mask.getLsbD (place c r)

/-- The letters of the symbolic form. -/
inductive WhoLetter where
  | u | g | o | a
deriving DecidableEq, Repr

inductive Operator where
  | set | add | remove
deriving DecidableEq, Repr

inductive PermLetter where
  | r | w | x | X | s
deriving DecidableEq, Repr

inductive Permission where
  | letters (l : List PermLetter)
  | copy (c : Class)

/-- An operator with what follows it. -/
structure Action where
  op : Operator
  perm : Permission

structure Clause where
  who : List WhoLetter
  first : Action
  more : List Action

/-- A symbolic operand: clauses separated by commas. -/
structure Symbolic where
  first : Clause
  more : List Clause

/-! ## Text -/

def WhoLetter.text : WhoLetter → Char
  | .u => 'u' | .g => 'g' | .o => 'o' | .a => 'a'

def Operator.text : Operator → Char
  | .set => '=' | .add => '+' | .remove => '-'

def PermLetter.text : PermLetter → Char
  | .r => 'r' | .w => 'w' | .x => 'x' | .X => 'X' | .s => 's'

def Permission.text : Permission → List Char
  | .letters l => l.map PermLetter.text
  | .copy .owner => ['u']
  | .copy .group => ['g']
  | .copy .others => ['o']

def Action.text (a : Action) : List Char := a.op.text :: a.perm.text

def Clause.text (c : Clause) : List Char :=
  c.who.map WhoLetter.text ++ c.first.text ++ c.more.flatMap Action.text

def Symbolic.text (s : Symbolic) : List Char :=
  s.first.text ++ s.more.flatMap fun c => ',' :: c.text

/-! ## Meaning -/

/-- Whether a clause concerns a class; no letter at all means all classes. -/
def concerns (who : List WhoLetter) (c : Class) : Bool :=
  who.isEmpty || who.contains .a ||
    match c with
    | .owner => who.contains .u
    | .group => who.contains .g
    | .others => who.contains .o

/-- Whether a permission letter designates a right; `now` is what is allowed when umask is called. -/
def designates (now : Allowed) (l : PermLetter) (r : Right) : Bool :=
  match l, r with
  | .r, .read => true
  | .w, .write => true
  | .x, .exec => true
  | .X, .exec => now .owner .exec || now .group .exec || now .others .exec
  | _, _ => false

def granted (now : Allowed) (p : Permission) (r : Right) : Bool :=
  match p with
  | .letters l => l.any fun x => designates now x r
  | .copy c => now c r

/-- What one action makes of the allowed permissions. -/
def Action.act (now : Allowed) (who : List WhoLetter) (before : Allowed) (a : Action) : Allowed :=
  fun c r =>
    if concerns who c then
      match a.op with
      | .set => granted now a.perm r
      | .add => before c r || granted now a.perm r
      | .remove => before c r && !granted now a.perm r
    else before c r

def Clause.act (now before : Allowed) (cl : Clause) : Allowed :=
  (cl.first :: cl.more).foldl (Action.act now cl.who) before

/-- What umask with a symbolic operand makes of the allowed permissions. -/
def Symbolic.meaning (s : Symbolic) (now : Allowed) : Allowed :=
  (s.first :: s.more).foldl (Clause.act now) now

/-- The number that octal digits denote, or `none` if there is another character. -/
def octal : List Char → Option Nat
  | s => s.foldl (fun n c => n.bind fun n =>
      if '0' ≤ c ∧ c ≤ '7' then some (n * 8 + (c.toNat - '0'.toNat)) else none) (some 0)

end Yash.Path.Spec
