import Verif.Sig.NameModel
/-!
# What signal names mean

From the model only the type of the table of signals is used.
-/
set_option autoImplicit false

namespace Yash.Sig.Names.Spec

/-- `s` is a decimal numeral for `n`; leading zeros are allowed. -/
inductive Numeral : Str → Nat → Prop
  | digit (d : Nat) : d < 10 → Numeral [Char.ofNat (48 + d)] d
  | snoc (s : Str) (n d : Nat) : d < 10 → Numeral s n → Numeral (s ++ [Char.ofNat (48 + d)]) (10 * n + d)

/-- The number is that of a signal, or zero for `EXIT`. -/
def Valid (T : Table) (n : Int) : Prop := n = 0 ∨ (T.rtmin ≤ n ∧ n ≤ T.rtmax) ∨ ∃ s, (n, s) ∈ T.table

/-- The names of signals without the prefix `SIG`. -/
inductive Name (T : Table) : Str → Int → Prop
  | table (s : Str) (n : Int) : (n, s) ∈ T.table → Name T s n
  | rtmin : Name T "RTMIN".toList T.rtmin
  | rtmax : Name T "RTMAX".toList T.rtmax
  | above (s : Str) (k : Nat) : Numeral s k → T.rtmin + k ≤ T.rtmax → Name T ("RTMIN+".toList ++ s) (T.rtmin + k)
  | below (s : Str) (k : Nat) : Numeral s k → k ≠ 0 → T.rtmin ≤ T.rtmax - k → Name T ("RTMAX-".toList ++ s) (T.rtmax - k)

/-- What may be given to the built-ins. -/
inductive Denotes (T : Table) : Str → Int → Prop
  | exit : Denotes T "EXIT".toList 0
  | number (s : Str) (n : Nat) : Numeral s n → Valid T n → Denotes T s n
  | plain (s : Str) (n : Int) : Name T s n → Denotes T s n
  | sig (s : Str) (n : Int) : Name T s n → Denotes T ("SIG".toList ++ s) n

/-- The notation that the code does not expect. -/
def Forbidden (s : Str) : Prop :=
  ∃ z, Numeral z 0 ∧ (s = "RTMAX-".toList ++ z ∨ s = "SIGRTMAX-".toList ++ z)

/-- What is assumed of the table: the numbers are positive integers in the range of `int` and not those of real-time
signals, names are different and in upper case letters and digits, begin with a letter and not with `SIG`, `EXIT` or
`RTM`. -/
structure Table.Ok (T : Table) : Prop where
  rtmin : 0 < T.rtmin
  le : T.rtmin ≤ T.rtmax
  rtmax : T.rtmax ≤ 2147483647
  number : ∀ s ∈ T.table, 0 < s.1 ∧ s.1 ≤ 2147483647 ∧ ¬ (T.rtmin ≤ s.1 ∧ s.1 ≤ T.rtmax)
  distinct : ∀ s ∈ T.table, ∀ t ∈ T.table, s.2 = t.2 → s.1 = t.1
  letters : ∀ s ∈ T.table, ∀ c ∈ s.2, ('A' ≤ c ∧ c ≤ 'Z') ∨ ('0' ≤ c ∧ c ≤ '9')
  first : ∀ s ∈ T.table, ∃ c r, s.2 = c :: r ∧ 'A' ≤ c ∧ c ≤ 'Z'
  prefixes : ∀ s ∈ T.table, ¬ "SIG".toList <+: s.2 ∧ ¬ "EXIT".toList <+: s.2 ∧ ¬ "RTM".toList <+: s.2

end Yash.Sig.Names.Spec
