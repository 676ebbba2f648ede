import Verif.History.Model
/-!
# What the command history is meant to be

This file does not refer to the functions of the model, only to the types of entries, settings, operands and commands.
-/
set_option autoImplicit false

namespace Yash.Spec.History

open Yash.History (Entry Params Str Operand Command Event)

/-! ## Numbers -/

/-- Numbers that increase from one entry to the next, except that after large numbers they may go on with small ones, once, below the first of all. -/
def Cyclic (max : Nat) (ns : List Nat) : Prop :=
  (∀ n ∈ ns, 1 ≤ n ∧ n ≤ max) ∧ ∃ a b, ns = a ++ b ∧ a.Pairwise (· < ·) ∧ b.Pairwise (· < ·) ∧ ∀ x ∈ a, ∀ y ∈ b, y < x

/-- A history that obeys the limits. -/
def Good (P : Params) (l : List Entry) : Prop := l.length ≤ P.size ∧ Cyclic P.max (l.map (·.number))

/-- The number after the newest entry. -/
def successor (max : Nat) (l : List Entry) (n : Nat) : Prop :=
  (l = [] ∧ n = 1) ∨ ∃ e, l.getLast? = some e ∧ ((e.number < max ∧ n = e.number + 1) ∨ (e.number = max ∧ n = 1))

/-- `l'` is `l` with `e` appended and as few of the oldest entries removed as the limits require. -/
def Appended (P : Params) (e : Entry) (l l' : List Entry) : Prop :=
  Good P l' ∧ ∃ k, l' = l.drop k ++ [e] ∧ ∀ j, j < k → ¬ Good P (l.drop j ++ [e])

/-- `l'` is `l` without the entries that have the value `line` and are among the `n` newest. -/
def Deduplicated (n : Nat) (line : Str) (l l' : List Entry) : Prop :=
  ∃ old new kept, l = old ++ new ∧ l' = old ++ kept ∧ (new.length = n ∨ (new.length < n ∧ old = [])) ∧ kept = new.filter (fun e => e.value ≠ line)

/-- A line is added at a time: lines that have nothing to see are not added. -/
def Added (P : Params) (visible : Char → Bool) (now : Nat) (line : Str) (l l' : List Entry) : Prop :=
  ((∃ c ∈ line, visible c = true) ∧ ∃ l1 n, Deduplicated P.rmdup line l l1 ∧ successor P.max l1 n ∧ Appended P ⟨n, some now, line⟩ l1 l') ∨
  ((¬ ∃ c ∈ line, visible c = true) ∧ l' = l)

/-- Lines are added one after another. -/
inductive AddedAll (P : Params) (visible : Char → Bool) (now : Nat) : List Str → List Entry → List Entry → Prop where
  | nil (l : List Entry) : AddedAll P visible now [] l l
  | cons {line : Str} {rest : List Str} {l l1 l2 : List Entry} : Added P visible now line l l1 → AddedAll P visible now rest l1 l2 → AddedAll P visible now (line :: rest) l l2

/-- The lines of a text: joined by newlines they make the text, and none contains one. -/
def LinesOf (text : Str) (lines : List Str) : Prop := lines ≠ [] ∧ (∀ line ∈ lines, '\n' ∉ line) ∧ List.intercalate ['\n'] lines = text

/-- A text is added; if `space` is set, a text that begins with a blank is not. -/
def TextAdded (P : Params) (visible blank : Char → Bool) (now : Nat) (text : Str) (l l' : List Entry) : Prop :=
  (P.space = true ∧ (∃ c rest, text = c :: rest ∧ blank c = true) ∧ l' = l) ∨
  (¬ (P.space = true ∧ ∃ c rest, text = c :: rest ∧ blank c = true) ∧ ∃ lines, LinesOf text lines ∧ AddedAll P visible now lines l l')

/-! ## Finding entries -/

/-- The numbers have started again from small ones. -/
def Wrapped (l : List Entry) : Prop := ∃ o n, l.head? = some o ∧ l.getLast? = some n ∧ n.number < o.number

/-- The number is beyond all the numbers of a history that has started again. -/
def Beyond (l : List Entry) (n : Nat) : Prop := Wrapped l ∧ ((∀ e ∈ l, e.number < n) ∨ (∀ e ∈ l, n < e.number))

/-- A place in the history: an entry, a place between two entries, or before or after all. -/
inductive Place where
  | before
  | entry (i : Nat)
  | between (i : Nat)
  | after
  deriving DecidableEq

/-- The place of a number. -/
def NumberAt (l : List Entry) (n : Nat) : Place → Prop
  | .entry i => ∃ e, l[i]? = some e ∧ e.number = n
  | .between i => ∃ e1 e2, l[i]? = some e1 ∧ l[i + 1]? = some e2 ∧ e1.number < n ∧ n < e2.number
  | .before => ∃ o w, l.head? = some o ∧ l.getLast? = some w ∧ n < o.number ∧ (w.number < o.number → w.number < n)
  | .after => ∃ o w, l.head? = some o ∧ l.getLast? = some w ∧ o.number ≤ w.number ∧ w.number < n

/-- The newest entry that begins with a string. -/
def NewestWith (l : List Entry) (s : Str) (i : Nat) : Prop :=
  (∃ e rest, l[i]? = some e ∧ e.value = s ++ rest) ∧ ∀ j e rest, i < j → l[j]? = some e → e.value ≠ s ++ rest

/-- The place an operand denotes. -/
inductive Denotes (l : List Entry) : Operand → Place → Prop where
  /-- a number -/
  | number {n : Nat} {p : Place} : 0 < n → NumberAt l n p → Denotes l (.number n) p
  /-- counting from the newest -/
  | back {k : Nat} : 0 < k → k ≤ l.length → Denotes l (.number (-(k : Int))) (.entry (l.length - k))
  /-- counting too far -/
  | tooFar {k : Nat} : l.length < k → Denotes l (.number (-(k : Int))) .before
  /-- a prefix -/
  | str {s : Str} {i : Nat} : NewestWith l s i → Denotes l (.str s) (.entry i)

/-- Where a range that begins at a place begins. -/
def start (l : List Entry) : Place → Nat
  | .before => 0
  | .entry i => i
  | .between i => i + 1
  | .after => l.length - 1

/-- Where a range that ends at a place ends. -/
def stop (l : List Entry) : Place → Nat
  | .before => 0
  | .entry i => i
  | .between i => i
  | .after => l.length - 1

/-- A place is before another, or the same. -/
def Place.le : Place → Place → Prop
  | .before, _ => True
  | _, .after => True
  | .entry i, .entry j => i ≤ j
  | .entry i, .between j => i ≤ j
  | .between i, .entry j => i < j
  | .between i, .between j => i ≤ j
  | _, _ => False

/-- The first place is just before the second, or the same, and one is between two entries. -/
def Touching : Place → Place → Prop
  | .between i, .entry j => j = i + 1
  | .entry j, .between i => j = i
  | .between i, .between j => i = j
  | _, _ => False

/-- The entries from one index to another. -/
def slice (l : List Entry) (i j : Nat) : List Entry := (l.take (j + 1)).drop i

/-! ## A history shared by several shells -/

/-- What a command means for the history, which is one list. -/
def Effect (P : Params) (visible blank : Char → Bool) (now : Nat) : Command → List Entry → List Entry → Prop
  | .add text, l, l' => TextAdded P visible blank now text l l'
  | .read lines, l, l' => AddedAll P visible now lines l l'
  | .removeLast, l, l' => l' = l.dropLast
  | .delete o, l, l' => (∃ i, Denotes l o (.entry i) ∧ l' = l.eraseIdx i) ∨ (∃ k : Nat, o = .number (-(k : Int)) ∧ l.length < k ∧ l' = l.drop 1) ∨
      ((∀ i, ¬ Denotes l o (.entry i)) ∧ (∀ k : Nat, o = .number (-(k : Int)) → k ≤ l.length) ∧ l' = l)
  | .clear, _, l' => l' = []
  | .refresh, l, l' => l' = l
  | .use, l, l' => l' = l

/-! ## Several shells that share a history -/

/-- The same entries with the numbers 1, 2, ... -/
def Renumbered (l l' : List Entry) : Prop := l'.length = l.length ∧ ∀ (i : Nat) (e : Entry), l[i]? = some e → l'[i]? = some { e with number := i + 1 }

/-- What an event does to the history that is shared, and to the set of the running shells. -/
inductive Happens (P : Params) (visible blank : Char → Bool) : Event → List Entry × (Nat → Bool) → List Entry × (Nat → Bool) → Prop where
  | run {pid : Nat} {m : Yash.History.Moment} {c : Command} {l l' : List Entry} {running : Nat → Bool} :
    running pid = true → Effect P visible blank m.now c l l' → Happens P visible blank (.run pid m c) (l, running) (l', running)
  /-- the history is renumbered only if no shell is using it -/
  | join {pid : Nat} {m : Yash.History.Moment} {l l' : List Entry} {running : Nat → Bool} :
    running pid = false → l' = l ∨ ((∀ q, running q = false) ∧ Renumbered l l') →
    Happens P visible blank (.join pid m) (l, running) (l', fun q => if q = pid then true else running q)
  | leave {pid : Nat} {m : Yash.History.Moment} {l : List Entry} {running : Nat → Bool} :
    running pid = true → Happens P visible blank (.leave pid m) (l, running) (l, fun q => if q = pid then false else running q)
  | crash {pid : Nat} {l : List Entry} {running : Nat → Bool} :
    Happens P visible blank (.crash pid) (l, running) (l, fun q => if q = pid then false else running q)

/-- Events one after another. -/
inductive Sequence (P : Params) (visible blank : Char → Bool) : List Event → List Entry × (Nat → Bool) → List Entry × (Nat → Bool) → Prop where
  | nil (s : List Entry × (Nat → Bool)) : Sequence P visible blank [] s s
  | cons {e : Event} {es : List Event} {s t u : List Entry × (Nat → Bool)} : Happens P visible blank e s t → Sequence P visible blank es t u → Sequence P visible blank (e :: es) s u

end Yash.Spec.History
