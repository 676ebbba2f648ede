import Verif.History.Find
/-!
# How entries are numbered and limited (C62)
-/
set_option autoImplicit false

namespace Yash.History

open Yash.Spec.History

/-! ## The settings -/

theorem growMax_ge (fuel m size : Nat) : m ≤ growMax fuel m size := by
  induction fuel generalizing m with
  | zero => exact Nat.le_refl _
  | succ fuel ih =>
    rw [growMax]
    split
    · exact Nat.le_trans (by omega) (ih (m * 10))
    · exact Nat.le_refl _

/-- **C62.** Whatever `HISTSIZE` is, at least one entry is kept, and there are at least twice as many numbers as entries. -/
theorem settings_sane (histsize rmdup : Option Nat) (space : Bool) :
    1 ≤ (initParams histsize rmdup space).size ∧ 2 * (initParams histsize rmdup space).size ≤ (initParams histsize rmdup space).max := by
  have hs : ∀ n P, 1 ≤ (setHistsize n P).size ∧ 2 * (setHistsize n P).size ≤ (setHistsize n P).max := by
    intro n P
    have hle : ∀ k, 1 ≤ k → k ≤ 1000000 → 2 * k ≤ growMax 10 100000 k := by
      intro k hk hk2
      have h3 : growMax 10 100000 k = if 100000 < 2 * k then growMax 9 1000000 k else 100000 := rfl
      have h4 : growMax 9 1000000 k = if 1000000 < 2 * k then growMax 8 10000000 k else 1000000 := rfl
      have := growMax_ge 8 10000000 k
      rw [h3, h4]
      split
      · split
        · omega
        · omega
      · omega
    simp only [setHistsize]
    have h0 : (if n > 1000000 then 1000000 else n) ≤ 1000000 := by split <;> omega
    generalize (if n > 1000000 then 1000000 else n) = k at h0
    have h1 : 1 ≤ (if k = 0 then 1 else k) := by split <;> omega
    refine ⟨h1, hle _ h1 ?_⟩
    split <;> omega
  have hd : ∀ P : Params, ∀ r, 1 ≤ P.size ∧ 2 * P.size ≤ P.max → 1 ≤ ({ P with rmdup := r } : Params).size ∧ 2 * ({ P with rmdup := r } : Params).size ≤ ({ P with rmdup := r } : Params).max :=
    fun _ _ h => h
  unfold initParams
  cases histsize <;> cases rmdup <;> simp only
  · simp only [Params.default]; omega
  · exact hd (.default space) _ (by simp only [Params.default]; omega)
  · exact hs _ _
  · rename_i n r
    exact hs (n % 4294967296) (.default space)

/-- **C62.** `HISTSIZE` is the number of entries that are kept, if it is not too large. -/
theorem histsize_kept (n : Nat) (rmdup : Option Nat) (space : Bool) (h1 : 1 ≤ n) (h2 : n ≤ 1000000) : (initParams (some n) rmdup space).size = n := by
  have hm : n % 4294967296 = n := Nat.mod_eq_of_lt (by omega)
  cases rmdup <;> simp only [initParams, setHistsize, hm, if_neg (by omega : ¬ n > 1000000), if_neg (by omega : ¬ n = 0)]

/-- **C62.** A size that is a multiple of 4294967296 leaves a single entry. -/
theorem histsize_wraps (k : Nat) (rmdup : Option Nat) (space : Bool) : (initParams (some (4294967296 * k)) rmdup space).size = 1 := by
  cases rmdup <;> simp [initParams, setHistsize]

/-- Settings that are possible. -/
structure Sane (P : Params) : Prop where
  size : 1 ≤ P.size
  max : 1 ≤ P.max

theorem initParams_sane (histsize rmdup : Option Nat) (space : Bool) : Sane (initParams histsize rmdup space) := by
  have := settings_sane histsize rmdup space
  exact ⟨this.1, by omega⟩

/-! ## Adding -/

theorem added_of_addLine {L : Libc} {P : Params} (hP : Sane P) {m : Moment} {line : Str} {x : Shell × List Str} (h : Good P x.1.list) :
    ∃ y, addLine L P m line x = some y ∧ Added P L.graph m.now line x.1.list y.1.list ∧ y.1.isOpen = x.1.isOpen := by
  have hany : (line.any L.graph = true) ↔ ∃ c ∈ line, L.graph c = true := List.any_eq_true
  by_cases hg : ∃ c ∈ line, L.graph c = true
  · rw [addLine, if_pos (hany.mpr hg)]
    have hd := removeDuplicates_spec P line x.1.list
    have hg1 : Good P (removeDuplicates P line x.1.list).1 := good_sublist h (removeDuplicates_sublist P line x.1.list)
    generalize removeDuplicates P line x.1.list = rd at hd hg1
    obtain ⟨l1, ds⟩ := rd
    simp only at hd hg1 ⊢
    obtain ⟨l2, hl2, ha⟩ := newEntry_appended (by have := hP.size; omega) (some m.now) line hg1 (nextNumber_range hP.max l1).1 (nextNumber_range hP.max l1).2
    rw [hl2]
    have hopen : ∀ (ds : List Nat) (z : Shell × List Str), (ds.foldl (fun y d => writeLine ('d' :: numeral 16 d) y) z).1.isOpen = z.1.isOpen := by
      intro ds
      induction ds with
      | nil => intro z; rfl
      | cons d ds ih => intro z; rw [List.foldl_cons, ih]; rfl
    refine ⟨_, rfl, Or.inl ⟨hg, l1, _, hd, nextNumber_successor hg1, ?_⟩, ?_⟩
    · split <;> (try split) <;> (try exact ha)
      all_goals (simp only [writeEntry]; split <;> exact ha)
    · by_cases ho : x.1.isOpen = true
      · simp only [ho, if_true, hopen, writeEntry]
        split
        · simp only [hopen]
        · simp only [writeLine, hopen]
      · have ho' : x.1.isOpen = false := by simpa using ho
        simp [ho']
  · rw [addLine, if_neg (fun hc => hg (hany.mp hc))]
    exact ⟨x, rfl, Or.inr ⟨hg, rfl⟩, rfl⟩

theorem good_of_added {P : Params} {visible : Char → Bool} {now : Nat} {line : Str} {l l' : List Entry} (h : Good P l) (ha : Added P visible now line l l') : Good P l' := by
  rcases ha with ⟨_, _, _, _, _, hg, _⟩ | ⟨_, rfl⟩
  · exact hg
  · exact h

theorem good_of_addedAll {P : Params} {visible : Char → Bool} {now : Nat} {lines : List Str} {l l' : List Entry} (h : Good P l) (ha : AddedAll P visible now lines l l') : Good P l' := by
  induction ha with
  | nil => exact h
  | cons a _ ih => exact ih (good_of_added h a)

theorem addedAll_of_addLines {L : Libc} {P : Params} (hP : Sane P) {m : Moment} (lines : List Str) {x : Shell × List Str} (h : Good P x.1.list) :
    ∃ y, addLines L P m lines x = some y ∧ AddedAll P L.graph m.now lines x.1.list y.1.list ∧ y.1.isOpen = x.1.isOpen := by
  induction lines generalizing x with
  | nil => exact ⟨x, rfl, .nil _, rfl⟩
  | cons line rest ih =>
    obtain ⟨y, hy, ha, ho⟩ := added_of_addLine (L := L) hP (m := m) (line := line) h
    obtain ⟨z, hz, haz, hoz⟩ := ih (good_of_added h ha)
    refine ⟨z, ?_, .cons ha haz, by rw [hoz, ho]⟩
    rw [addLines, hy, Option.bind_some, hz]

/-- **C62.** In a shell that has no history file, a command line is added as it should be: split into lines, each one without its recent duplicates, with the next
number, and with as few old entries removed as possible. -/
theorem text_added {L : Libc} {P : Params} (hP : Sane P) (m : Moment) (text : Str) {x : Shell × List Str} (h : Good P x.1.list) (ho : x.1.isOpen = false) :
    ∃ y, addHistory L P m text x = some y ∧ TextAdded P L.graph L.blank m.now text x.1.list y.1.list := by
  have hb : ((text.head?.map L.blank).getD false = true) ↔ ∃ c rest, text = c :: rest ∧ L.blank c = true := by
    cases text with
    | nil => simp
    | cons c cs => simp
  rw [addHistory]
  by_cases hs : (P.space && (text.head?.map L.blank).getD false) = true
  · rw [if_pos hs]
    rw [Bool.and_eq_true, hb] at hs
    exact ⟨x, rfl, Or.inl ⟨hs.1, hs.2, rfl⟩⟩
  · rw [if_neg hs]
    rw [Bool.and_eq_true, hb] at hs
    have hu : updateHistory L P m true x = some x := by
      rw [updateHistory, if_neg (by simp [ho])]
    rw [hu, Option.bind_some]
    obtain ⟨y, hy, ha, _⟩ := addedAll_of_addLines (L := L) hP (m := m) (splitText text) h
    exact ⟨y, hy, Or.inr ⟨hs, _, splitText_linesOf text, ha⟩⟩

theorem appended_good {P : Params} {n : Nat} {time : Option Nat} {line : Str} {l l' : List Entry} (hP : Sane P) (h : Good P l) (he : newEntry P n time line l = some l') :
    Appended P ⟨n, time, line⟩ l l' := by
  by_cases hn : 1 ≤ n ∧ n ≤ P.max
  · obtain ⟨l2, h2, ha⟩ := newEntry_appended (P := P) (by have := hP.size; omega) time line h hn.1 hn.2
    rw [he] at h2
    cases h2
    exact ha
  · rw [newEntry, if_neg (by simp; omega)] at he
    cases he

/-! ## The limits are kept whatever happens -/

theorem renumber_numbers (l : List Entry) : (renumber l).map (·.number) = (List.range l.length).map (· + 1) := by
  have : ∀ (l : List Entry) (k : Nat), ((l.zipIdx k).map fun (e, i) => ({ e with number := i + 1 } : Entry)).map (·.number) = (List.range' k l.length).map (· + 1) := by
    intro l
    induction l with
    | nil => intro k; rfl
    | cons e l ih => intro k; simp only [List.zipIdx_cons, List.map_cons, List.length_cons, List.range'_succ, ih]
  rw [List.range_eq_range']
  exact this l 0

theorem renumber_good {P : Params} {l : List Entry} (h : Good P l) (hsm : P.size ≤ P.max) : Good P (renumber l) := by
  have hlen : (renumber l).length = l.length := by simp [renumber]
  refine ⟨by rw [hlen]; exact h.1, ?_⟩
  rw [renumber_numbers]
  refine ⟨?_, _, [], (List.append_nil _).symm, ?_, List.Pairwise.nil, by simp⟩
  · intro n hn
    obtain ⟨k, hk, rfl⟩ := List.mem_map.mp hn
    have := List.mem_range.mp hk
    have := h.1
    omega
  · rw [List.pairwise_map]
    exact List.pairwise_lt_range.imp (by intro a b h; omega)

theorem parseEntry_good {L : Libc} {P : Params} (hP : Sane P) {now : Nat} {line : Str} {l l' : List Entry} (h : Good P l) (he : parseEntry L P now line l = some l') : Good P l' := by
  unfold parseEntry at he
  (repeat' split at he) <;> first
    | (cases he; exact h)
    | exact (appended_good hP h he).1

theorem eraseIdx_good {P : Params} {l : List Entry} (h : Good P l) (i : Nat) : Good P (l.eraseIdx i) := good_sublist h (List.eraseIdx_sublist _ _)

theorem parseRemoved_good {L : Libc} {P : Params} {s : Str} {l l' : List Entry} (h : Good P l) (he : parseRemoved L P s l = some l') : Good P l' := by
  unfold parseRemoved at he
  split at he
  · cases he; exact h
  · split at he
    · cases he; exact h
    · split at he
      · cases he; exact h
      · cases hs : search P _ l with
        | none => rw [hs] at he; cases he
        | some r =>
          rw [hs] at he
          simp only [Option.bind_eq_bind, Option.bind_some] at he
          (repeat' split at he) <;> cases he <;> first
            | exact h
            | exact eraseIdx_good h _

theorem readLine_good {L : Libc} {P : Params} (hP : Sane P) {now : Nat} {line : Str} {sh sh' : Shell} (h : Good P sh.list) (he : readLine L P now line sh = some sh') : Good P sh'.list := by
  unfold readLine at he
  simp only at he
  split at he
  · cases he; exact h
  · split at he
    · obtain ⟨l, hl, rfl⟩ := Option.map_eq_some_iff.mp he
      exact parseEntry_good hP h hl
    · split at he
      · cases he; exact good_sublist h (List.dropLast_sublist _)
      · split at he
        · obtain ⟨l, hl, rfl⟩ := Option.map_eq_some_iff.mp he
          exact parseRemoved_good h hl
        · split at he <;> (cases he; exact h)

theorem readLines_good {L : Libc} {P : Params} (hP : Sane P) {now : Nat} (file : List Str) {sh sh' : Shell} (h : Good P sh.list) (he : readLines L P now file sh = some sh') :
    Good P sh'.list := by
  induction file generalizing sh with
  | nil => cases he; exact h
  | cons line file ih =>
    rw [readLines] at he
    split at he
    · exact ih h he
    · obtain ⟨s, hs, he⟩ := Option.bind_eq_some_iff.mp he
      exact ih (readLine_good hP h hs) he

theorem readRaw_good {L : Libc} {P : Params} (hP : Sane P) (file : List Str) {l l' : List Entry} (h : Good P l) (he : readRaw L P file l = some l') : Good P l' := by
  induction file generalizing l with
  | nil => cases he; exact h
  | cons line file ih =>
    rw [readRaw] at he
    split at he
    · exact ih h he
    · obtain ⟨s, hs, he⟩ := Option.bind_eq_some_iff.mp he
      exact ih (appended_good hP h hs).1 he

theorem writeLine_list (line : Str) (x : Shell × List Str) : (writeLine line x).1.list = x.1.list := rfl

theorem writeEntry_list (L : Libc) (e : Entry) (x : Shell × List Str) : (writeEntry L e x).1.list = x.1.list := by
  rw [writeEntry]; split <;> rfl

theorem refreshFile_list (L : Libc) (x : Shell × List Str) : (refreshFile L x).1.list = x.1.list := by
  have h1 : ∀ (es : List Entry) (y : Shell × List Str), (es.foldl (fun y e => writeEntry L e y) y).1.list = y.1.list := by
    intro es
    induction es with
    | nil => intro y; rfl
    | cons e es ih => intro y; rw [List.foldl_cons, ih, writeEntry_list]
  have h2 : ∀ (ps : List Nat) (y : Shell × List Str), (ps.foldl (fun y pid => writeLine ('p' :: numeral 10 pid) y) y).1.list = y.1.list := by
    intro ps
    induction ps with
    | nil => intro y; rfl
    | cons e es ih => intro y; rw [List.foldl_cons, ih, writeLine_list]
  rw [refreshFile, h1, writePids, h2]
  rfl

theorem maybeRefresh_list (L : Libc) (m : Moment) (x : Shell × List Str) : (maybeRefresh L m x).1.list = x.1.list := by
  rw [maybeRefresh]
  split
  · rw [refreshFile_list]
  · rfl

theorem updateHistory_good {L : Libc} {P : Params} (hP : Sane P) {m : Moment} {refresh : Bool} {x y : Shell × List Str} (h : Good P x.1.list)
    (he : updateHistory L P m refresh x = some y) : Good P y.1.list := by
  rw [updateHistory] at he
  split at he
  · split at he
    · cases he; exact h
    · obtain ⟨s, hs, he⟩ := Option.bind_eq_some_iff.mp he
      have hg : Good P s.list := by
        rw [reread] at hs
        split at hs
        · exact readLines_good hP _ h hs
        · exact readLines_good hP _ (good_nil P) hs
      cases he
      split
      · rw [maybeRefresh_list]; exact hg
      · exact hg
  · cases he; exact h

/-- **C62.** The limits are kept by every command, however the history file has been changed in the meantime: there are not more entries than `HISTSIZE`, and the numbers
are distinct and go up, starting again from small numbers at most once. -/
theorem limits_kept {L : Libc} {P : Params} (hP : Sane P) {intMax : Nat} {m : Moment} {c : Command} {x y : Shell × List Str} (h : Good P x.1.list)
    (he : perform L P intMax m c x = some y) : Good P y.1.list := by
  cases c with
  | add text =>
    simp only [perform, addHistory] at he
    split at he
    · cases he; exact h
    · obtain ⟨z, hz, he⟩ := Option.bind_eq_some_iff.mp he
      have hg := updateHistory_good hP h hz
      obtain ⟨y', hy', ha, _⟩ := addedAll_of_addLines (L := L) hP (m := m) (splitText text) hg
      rw [hy'] at he
      cases he
      exact good_of_addedAll hg ha
  | read lines =>
    simp only [perform, fcRead] at he
    obtain ⟨z, hz, he⟩ := Option.bind_eq_some_iff.mp he
    have hg := updateHistory_good hP h hz
    obtain ⟨y', hy', ha, _⟩ := addedAll_of_addLines (L := L) hP (m := m) (lines.filter fun line => !L.skipped line) hg
    rw [hy'] at he
    have hg' : Good P y'.1.list := good_of_addedAll hg ha
    simp only [Option.bind_eq_bind, Option.bind_some, Option.some.injEq] at he
    rw [← he]
    split
    · rw [maybeRefresh_list]; exact hg'
    · exact hg'
  | removeLast =>
    simp only [perform, fcRemoveLast] at he
    obtain ⟨z, hz, he⟩ := Option.bind_eq_some_iff.mp he
    have hg := updateHistory_good hP h hz
    simp only [Option.some.injEq] at he
    rw [← he]
    have hg' : Good P (removeLast z.1.list) := good_sublist hg (List.dropLast_sublist _)
    split <;> exact hg'
  | delete o =>
    simp only [perform, delete] at he
    obtain ⟨⟨st, w⟩, hw, rfl⟩ := Option.map_eq_some_iff.mp he
    obtain ⟨z, hz, hw⟩ := Option.bind_eq_some_iff.mp hw
    have hg := updateHistory_good hP h hz
    obtain ⟨t, ht, hw⟩ := Option.bind_eq_some_iff.mp hw
    cases t with
    | none => simp only [Option.some.injEq, Prod.mk.injEq] at hw; rw [← hw.2]; exact hg
    | some i =>
      simp only at hw
      obtain ⟨e, _, hw⟩ := Option.bind_eq_some_iff.mp hw
      simp only [Option.some.injEq, Prod.mk.injEq] at hw
      rw [← hw.2]
      have hl : (if z.1.isOpen = true then writeLine ('d' :: numeral 16 e.number) z else z).1.list = z.1.list := by split <;> rfl
      simp only [hl]
      exact eraseIdx_good hg i
  | clear =>
    simp only [perform, clearAll] at he
    obtain ⟨z, hz, he⟩ := Option.bind_eq_some_iff.mp he
    simp only [Option.some.injEq] at he
    rw [← he]
    split
    · rw [refreshFile_list]; exact good_nil P
    · exact good_nil P
  | refresh =>
    simp only [perform, refreshHistory] at he
    obtain ⟨z, hz, he⟩ := Option.bind_eq_some_iff.mp he
    have hg := updateHistory_good hP h hz
    simp only [Option.some.injEq] at he
    rw [← he]
    split
    · rw [refreshFile_list]; exact hg
    · exact hg
  | use => exact updateHistory_good hP h he

/-- **C62.** The limits hold when the shell has started, whatever the history file contained. -/
theorem limits_at_start {L : Libc} {P : Params} (hP : Sane P) (hsm : P.size ≤ P.max) {m : Moment} {pid : Nat} {file : List Str} {y : Shell × List Str}
    (he : initHistory L P m pid file = some y) : Good P y.1.list := by
  obtain ⟨z, hz, rfl⟩ := Option.map_eq_some_iff.mp he
  simp only [writeLine_list]
  rw [startReading] at hz
  split at hz
  · obtain ⟨l, hl, rfl⟩ := Option.map_eq_some_iff.mp hz
    rw [refreshFile_list]
    exact readRaw_good hP _ (good_nil P) hl
  · obtain ⟨s, hs, rfl⟩ := Option.map_eq_some_iff.mp hz
    have hg : Good P s.list := readLines_good hP _ (good_nil P) hs
    simp only
    split
    · rw [refreshFile_list]; exact renumber_good hg hsm
    · rw [maybeRefresh_list]; exact hg

/-- **C62.** An entry is found by its number. -/
theorem found_by_number {P : Params} {l : List Entry} (h : Good P l) {i : Nat} {e : Entry} (he : l[i]? = some e) : getEntry P e.number l = some (some i) := by
  rw [getEntry, search_entry h ⟨e, he, rfl⟩]
  simp

/-- **C62.** A number that no entry has is not found, unless it is beyond the numbers of a history that has started again. -/
theorem not_found_by_number {P : Params} {l : List Entry} (h : Good P l) {n : Nat} (hn : ∀ e ∈ l, e.number ≠ n) (hb : ¬ Beyond l n) : getEntry P n l = some none := by
  by_cases hne : l = []
  · subst hne
    rfl
  · obtain ⟨p, hp, hs⟩ := search_place h hne hb
    rw [getEntry, hs]
    cases p with
    | entry i =>
      obtain ⟨e, he, hen⟩ := hp
      exact absurd hen (hn e (List.mem_of_getElem? he))
    | before => rfl
    | after => simp [ofPlace]
    | between i => simp [ofPlace]

/-- **C62.** In a history whose numbers have started again, looking for a number beyond them all reads memory that is not an entry. -/
theorem beyond_undefined {P : Params} {l : List Entry} (h : Good P l) {n : Nat} (hn : Beyond l n) (hmax : n ≤ P.max) : getEntry P n l = none := by
  rw [getEntry, search_beyond h hn hmax]
  rfl

/-! ## Examples -/

/-- Five entries are kept, and numbers go up to ten. -/
def small : Params := { size := 5, max := 10, rmdup := 2, space := true }

def wrapped : List Entry := [⟨8, none, "a".toList⟩, ⟨9, none, "b".toList⟩, ⟨2, none, "c".toList⟩]

theorem wrapped_good : Good small wrapped := ⟨by decide, by decide, [8, 9], [2], rfl, by decide, by decide, by decide⟩

example : Sane small := ⟨by decide, by decide⟩

/-- The numbers 1 and 10 are beyond: nobody has them, and there is no way to tell. -/
example : Beyond wrapped 1 ∧ Beyond wrapped 10 ∧ getEntry small 1 wrapped = none ∧ getEntry small 10 wrapped = none :=
  ⟨⟨⟨_, _, rfl, rfl, by decide⟩, Or.inr (by decide)⟩, ⟨⟨_, _, rfl, rfl, by decide⟩, Or.inl (by decide)⟩, by decide +kernel, by decide +kernel⟩

example : getEntry small 9 wrapped = some (some 1) ∧ getEntry small 5 wrapped = some none := by decide +kernel

/-- A duplicate among the two newest entries is removed, an older one is not. -/
example : (removeDuplicates small "b".toList wrapped).1 = [⟨8, none, "a".toList⟩, ⟨2, none, "c".toList⟩] ∧ (removeDuplicates small "a".toList wrapped).1 = wrapped := by decide +kernel

end Yash.History
