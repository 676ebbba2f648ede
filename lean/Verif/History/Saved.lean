import Verif.History.World
/-!
# C63: what `history -w` writes and `history -r` reads
-/
set_option autoImplicit false

namespace Yash.History

open Yash.Spec.History

theorem counted_good {P : Params} {l : List Entry} (hn : l.map (·.number) = (List.range l.length).map (· + 1)) (hs : l.length ≤ P.size) (hm : P.size ≤ P.max) : Good P l := by
  refine ⟨hs, ?_⟩
  rw [hn]
  refine ⟨?_, _, [], (List.append_nil _).symm, ?_, List.Pairwise.nil, by simp⟩
  · intro n h
    obtain ⟨k, hk, rfl⟩ := List.mem_map.mp h
    have := List.mem_range.mp hk
    omega
  · rw [List.pairwise_map]
    exact List.pairwise_lt_range.imp (fun h => by omega)

/-- Entries with the numbers 1, 2, ... -/
def counted (now : Nat) (lines : List Str) : List Entry := renumber (lines.map fun line => ⟨0, some now, line⟩)

theorem counted_snoc (now : Nat) (lines : List Str) (line : Str) : counted now (lines ++ [line]) = counted now lines ++ [⟨lines.length + 1, some now, line⟩] := by
  simp [counted, renumber, List.zipIdx_append]

theorem counted_numbers (now : Nat) (lines : List Str) : (counted now lines).map (·.number) = (List.range (counted now lines).length).map (· + 1) := by
  rw [counted, renumber_numbers]
  simp [renumber]

theorem counted_length (now : Nat) (lines : List Str) : (counted now lines).length = lines.length := by simp [counted, renumber]

theorem counted_values (now : Nat) (lines : List Str) : (counted now lines).map (·.value) = lines := by
  have : ∀ (k : Nat) (ls : List Str), (((ls.map fun line => (⟨0, some now, line⟩ : Entry)).zipIdx k).map fun (e, i) => ({ e with number := i + 1 } : Entry)).map (·.value) = ls := by
    intro k ls
    induction ls generalizing k with
    | nil => rfl
    | cons l ls ih => simp only [List.map_cons, List.zipIdx_cons, ih]
  exact this 0 lines

theorem nextNumber_counted {P : Params} (now : Nat) (lines : List Str) (h : lines.length < P.max) : nextNumber P (counted now lines) = lines.length + 1 := by
  cases hl : lines.reverse with
  | nil =>
    have : lines = [] := by simpa using hl
    subst this
    rfl
  | cons x r =>
    have : lines = r.reverse ++ [x] := by
      have := congrArg List.reverse hl
      simpa using this
    subst this
    rw [counted_snoc, nextNumber]
    simp only [List.getLast?_concat]
    simp at h ⊢
    omega

theorem addLine_counted {L : Libc} {P : Params} (hS : Sane P) (hm : P.size ≤ P.max) (hd : P.rmdup = 0) (m : Moment) (lines : List Str) {line : Str} (hv : line.any L.graph = true)
    (hlen : lines.length < P.size) {x : Shell × List Str} (ho : x.1.isOpen = false) (hx : x.1.list = counted m.now lines) :
    addLine L P m line x = some ({ x.1 with list := counted m.now (lines ++ [line]) }, x.2) := by
  have hrd : removeDuplicates P line (counted m.now lines) = (counted m.now lines, []) := by
    simp [removeDuplicates, hd]
  have hg : Good P (counted m.now (lines ++ [line])) := counted_good (counted_numbers _ _) (by rw [counted_length]; simp; omega) hm
  rw [counted_snoc] at hg
  have hn := newEntry_snoc hS hg
  rw [addLine, if_pos hv]
  simp only [hx, hrd, ho, List.foldl_nil, nextNumber_counted m.now lines (by omega : lines.length < P.max)]
  simp only at hn
  rw [hn, counted_snoc]
  simp [ho]

/-- **C63.** What `history -w` has written, `history -r` adds to an empty history: the same lines in the same order, if duplicates are kept and every line has something to see
and is short enough to be read. -/
theorem write_read {L : Libc} {P : Params} (hS : Sane P) (hm : P.size ≤ P.max) (hd : P.rmdup = 0) (m : Moment) {l : List Entry} (hl : Good P l)
    (hv : ∀ e ∈ l, e.value.any L.graph = true ∧ L.skipped e.value = false) {x : Shell × List Str} (ho : x.1.isOpen = false) (hx : x.1.list = []) :
    ∃ y, fcRead L P m (writeHistory l) x = some y ∧ y.1.list.map (·.value) = l.map (·.value) := by
  have hf : (writeHistory l).filter (fun line => !L.skipped line) = writeHistory l := by
    refine List.filter_eq_self.mpr fun line h => ?_
    obtain ⟨e, he, rfl⟩ := List.mem_map.mp h
    rw [(hv e he).2]
    rfl
  have main : ∀ (rest pre : List Str) (x : Shell × List Str), (∀ line ∈ rest, line.any L.graph = true) → pre.length + rest.length ≤ P.size → x.1.isOpen = false →
      x.1.list = counted m.now pre → ∃ y, addLines L P m rest x = some y ∧ y.1.list = counted m.now (pre ++ rest) ∧ y.1.isOpen = false := by
    intro rest
    induction rest with
    | nil => intro pre x _ _ h1 h2; exact ⟨x, rfl, by simpa using h2, h1⟩
    | cons line rest ih =>
      intro pre x h1 h2 h3 h4
      simp only [List.length_cons] at h2
      rw [addLines, addLine_counted hS hm hd m pre (h1 line (by simp)) (by omega) h3 h4, Option.bind_some]
      obtain ⟨y, hy1, hy2, hy3⟩ := ih (pre ++ [line]) ({ x.1 with list := counted m.now (pre ++ [line]) }, x.2) (fun l hl => h1 l (by simp [hl])) (by simp; omega) h3 rfl
      exact ⟨y, hy1, by simpa using hy2, hy3⟩
  obtain ⟨y, h1, h2, h3⟩ := main (writeHistory l) [] x (by
      intro line h
      obtain ⟨e, he, rfl⟩ := List.mem_map.mp h
      exact (hv e he).1) (by simpa [writeHistory] using hl.1) ho hx
  refine ⟨y, ?_, ?_⟩
  · rw [fcRead, updateHistory, if_neg (by simp [ho])]
    simp only [hf, h1, Option.bind_eq_bind, Option.bind_some, h3]
    rfl
  · rw [h2, List.nil_append, counted_values, writeHistory]

/-- A value that is too long is in the list of the shell but not in the file, so that other shells do not have it. -/
theorem long_value_not_written {L : Libc} {e : Entry} (h : L.lineMax ≤ e.value.length) (x : Shell × List Str) : writeEntry L e x = x := by
  rw [writeEntry, if_pos h]

end Yash.History
