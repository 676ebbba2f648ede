import Verif.History.World
import Verif.History.Saved
/-!
# A C library, and shells that share a history
-/
set_option autoImplicit false

namespace Yash.History

open Yash.Spec.History

namespace Ascii

def isDigit (base : Nat) (c : Char) : Bool := (List.range base).any fun d => digitChar d == c

def value (base : Nat) (c : Char) : Nat := ((List.range base).find? fun d => digitChar d == c).getD 0

def number (base : Nat) (s : Str) : Nat := s.foldl (fun a c => a * base + value base c) 0

def unsigned (base : Nat) (s : Str) : Option (Nat × Str) :=
  if (s.takeWhile (isDigit base)).isEmpty then none else some (number base (s.takeWhile (isDigit base)), s.dropWhile (isDigit base))

def longMax : Nat := 9223372036854775807

def libc : Libc where
  hex := unsigned 16
  long s := (unsigned 10 s).bind fun (n, rest) => if rest.isEmpty && n ≤ longMax then some n else none
  intmax s := match s with
    | '-' :: t => (unsigned 10 t).map fun (n, rest) => (-(n : Int), rest)
    | s => (unsigned 10 s).map fun (n, rest) => ((n : Int), rest)
  xdigit := isDigit 16
  digit := isDigit 10
  space c := c = ' '
  blank c := c = ' '
  graph c := c ≠ ' '
  lineMax := 2048
  longMax := longMax
  skipped line := decide (2048 ≤ line.length)

theorem value_digit {base d : Nat} (hb : base ≤ 16) (hd : d < base) : value base (digitChar d) = d ∧ isDigit base (digitChar d) = true := by
  have : ∀ b ≤ 16, ∀ d < b, value b (digitChar d) = d ∧ isDigit b (digitChar d) = true := by decide +kernel
  exact this base hb d hd

theorem number_numeral {base : Nat} (hb : 2 ≤ base) (hb2 : base ≤ 16) (n : Nat) : number base (numeral base n) = n := by
  induction n using Nat.strongRecOn with
  | ind n ih =>
    by_cases h : n < base
    · rw [numeral_small h, number]
      simp [(value_digit hb2 h).1]
    · have hlt : n / base < n := Nat.div_lt_self (by omega) (by omega)
      rw [numeral_large hb (by omega), number, List.foldl_append]
      have := ih _ hlt
      rw [number] at this
      rw [this]
      simp only [List.foldl_cons, List.foldl_nil, (value_digit hb2 (Nat.mod_lt n (by omega))).1]
      rw [Nat.mul_comm]
      exact Nat.div_add_mod n base

theorem numeral_all {base : Nat} (hb : 2 ≤ base) (hb2 : base ≤ 16) (n : Nat) : ∀ c ∈ numeral base n, isDigit base c = true := by
  obtain ⟨ds, _, h2, h3, _⟩ := numeral_digits hb n
  rw [h3]
  intro c hc
  obtain ⟨d, hd, rfl⟩ := List.mem_map.mp hc
  exact (value_digit hb2 (h2 d hd)).2

theorem unsigned_numeral {base : Nat} (hb : 2 ≤ base) (hb2 : base ≤ 16) (n : Nat) (r : Str) (hr : (r.head?.map (isDigit base)).getD false = false) :
    unsigned base (numeral base n ++ r) = some (n, r) := by
  have hall := numeral_all hb hb2 n
  have hr1 : r.takeWhile (isDigit base) = [] := by
    cases r with
    | nil => rfl
    | cons c r => simp at hr; simp [hr]
  have hr2 : r.dropWhile (isDigit base) = r := by
    cases r with
    | nil => rfl
    | cons c r => simp at hr; simp [hr]
  have h1 : (numeral base n ++ r).takeWhile (isDigit base) = numeral base n := by
    rw [List.takeWhile_append_of_pos hall, hr1, List.append_nil]
  have h2 : (numeral base n ++ r).dropWhile (isDigit base) = r := by
    rw [List.dropWhile_append_of_pos hall, hr2]
  obtain ⟨d, rest, _, hn⟩ := numeral_head hb n
  rw [unsigned, h1, h2, if_neg (by rw [hn]; simp), number_numeral hb hb2]

theorem ok : LibcOk libc where
  hex_colon n r _ := unsigned_numeral (base := 16) (by decide) (by decide) n (':' :: r) rfl
  hex_space n r _ := unsigned_numeral (base := 16) (by decide) (by decide) n (' ' :: r) rfl
  hex_end n _ := by
    have := unsigned_numeral (base := 16) (by decide) (by decide) n [] rfl
    rwa [List.append_nil] at this
  xdigit d hd := (value_digit (by decide) hd).2
  space := rfl
  digit d hd := (value_digit (by decide) hd).2
  long n hn := by
    have h := unsigned_numeral (base := 10) (by decide) (by decide) n [] rfl
    rw [List.append_nil] at h
    have hn' : n ≤ longMax := hn
    simp [libc, h, hn']
  long_le s n h := by
    simp only [libc] at h
    obtain ⟨x, _, hx⟩ := Option.bind_eq_some_iff.mp h
    split at hx
    · rename_i hc
      cases hx
      simp at hc
      exact hc.2
    · cases hx
  longMax := by decide
  intmax_pos n _ := by
    have h := unsigned_numeral (base := 10) (by decide) (by decide) n [] rfl
    rw [List.append_nil] at h
    obtain ⟨d, rest, hd, hn⟩ := numeral_head (base := 10) (by decide) n
    have hne : digitChar d ≠ '-' := by
      have : ∀ d < 10, digitChar d ≠ '-' := by decide
      exact this d hd
    rw [hn] at h ⊢
    simp only [libc]
    split
    · rename_i heq
      exact absurd (List.cons.inj heq).1 hne
    · rw [h]; rfl
  intmax_neg n _ := by
    have h := unsigned_numeral (base := 10) (by decide) (by decide) n [] rfl
    rw [List.append_nil] at h
    simp only [libc, h]
    rfl
  lineMax := by decide
  skipped line h := by
    simp only [libc] at h ⊢
    simpa using h

end Ascii

/-! ## Two shells -/

/-- Everybody with one of these numbers is running. -/
def moment (now : Nat) (pids : List Nat) : Moment := { now := now, alive := fun q => decide (q ∈ pids) }

def firstFile : List Str := ["#$# yash history v0 r7".toList, "1:5 ls".toList, "2:6 make".toList, "p999".toList]

/-- The file after the first shell has started. -/
def firstShell : Option (Shell × List Str) := initHistory Ascii.libc small (moment 100 []) 20 firstFile

def firstWorld : World := match firstShell with
  | some y => { file := y.2, shells := fun q => if q = 20 then some y.1 else none, clock := 100 }
  | none => { file := [], shells := fun _ => none, clock := 0 }

def firstSh : Shell := { list := [⟨1, some 5, "ls".toList⟩, ⟨2, some 6, "make".toList⟩], pids := [20], rev := some 8, lines := 3, pos := 4, isOpen := true, pid := 20 }

theorem firstShell_some : firstShell = some (firstSh, ["#$# yash history v0 r8".toList, "1:5 ls".toList, "2:6 make".toList, "p20".toList]) := by decide +kernel

example : Start Ascii.libc small firstWorld [⟨1, some 5, "ls".toList⟩, ⟨2, some 6, "make".toList⟩] := by
  refine ⟨20, moment 100 [], firstFile, _, firstShell_some, by simp [moment], by decide, by decide, by decide, by decide, ?_, rfl⟩
  rw [firstWorld, firstShell_some]
  rfl

example : Settings small 2147483647 := ⟨⟨by decide, by decide⟩, by decide, by decide, by decide⟩

/-- A second shell is started, both change the history, the first deletes an entry of the second, and the second ends. -/
def story : List Event :=
  [.join 30 (moment 110 [20]), .run 30 (moment 120 [20, 30]) (.add "echo 1\nfor".toList), .run 20 (moment 130 [20, 30]) (.delete (.str "echo".toList)),
   .run 20 (moment 140 [20, 30]) (.add "ls".toList), .run 30 (moment 150 [20, 30]) .refresh, .leave 30 (moment 160 [20, 30]), .run 20 (moment 170 [20]) .use]

def last : Option (List Str × Option (List Entry)) := (steps Ascii.libc small 2147483647 story firstWorld).map fun w => (w.file, (w.shells 20).map (·.list))

example : last = some (["#$# yash history v0 r9".toList, "p20".toList, "p30".toList, "1:5 ls".toList, "2:6 make".toList, "4:78 for".toList, "5:8C ls".toList, "p-30".toList],
    some [⟨1, some 5, "ls".toList⟩, ⟨2, some 6, "make".toList⟩, ⟨4, some 120, "for".toList⟩, ⟨5, some 140, "ls".toList⟩]) := by decide +kernel

/-- Something that may happen in the beginning. -/
example : AllowedAll Ascii.libc small 2147483647 [.run 20 (moment 110 [20]) (.add "ls -l\npwd".toList)] firstWorld := by
  have hw : firstWorld = { file := ["#$# yash history v0 r8".toList, "1:5 ls".toList, "2:6 make".toList, "p20".toList], shells := fun q => if q = 20 then some firstSh else none, clock := 100 } := by
    rw [firstWorld, firstShell_some]
  refine ⟨⟨⟨?_, by decide, ?_, ?_⟩, ?_⟩, fun _ _ => trivial⟩
  · rw [hw]; decide
  · intro q hq
    rw [hw] at hq
    simp only at hq
    split at hq
    · rename_i h; simp [moment, h]
    · cases hq
  · intro r hr
    rw [hw] at hr
    have : readSignature Ascii.libc ["#$# yash history v0 r8".toList, "1:5 ls".toList, "2:6 make".toList, "p20".toList] = some 8 := by decide +kernel
    simp only [this] at hr
    cases hr
    decide
  · intro lines hl line hm
    have hlen : ∀ ls : List Str, line ∈ ls → line.length ≤ (List.intercalate ['\n'] ls).length := by
      intro ls h
      have h1 : (List.intercalate ['\n'] ls) = (ls.intersperse ['\n']).flatten := rfl
      rw [h1]
      refine List.Sublist.length_le (List.sublist_flatten_of_mem ?_)
      induction ls with
      | nil => cases h
      | cons a t ih =>
        cases t with
        | nil => simpa using h
        | cons b t =>
          rw [List.intersperse_cons_cons]
          rcases List.mem_cons.mp h with rfl | h
          · simp
          · exact List.mem_cons_of_mem _ (List.mem_cons_of_mem _ (ih h rfl))
    have := hlen lines hm
    rw [hl.2.2] at this
    have h2 : ("ls -l\npwd".toList).length = 9 := by decide
    have h3 : Ascii.libc.lineMax = 2048 := rfl
    omega

/-- A history that can be written and read: the numbers become 1, 2, 3. -/
example : (∀ e ∈ wrapped, e.value.any Ascii.libc.graph = true ∧ Ascii.libc.skipped e.value = false) ∧ { small with rmdup := 0 }.rmdup = 0 ∧
    (fcRead Ascii.libc { small with rmdup := 0 } (moment 9 []) (writeHistory wrapped) ({ pid := 20 }, [])).map (fun y => y.1.list.map (fun e => (e.number, e.value))) =
      some ((wrapped.zipIdx 1).map fun (e, i) => (i, e.value)) := by decide +kernel

end Yash.History
