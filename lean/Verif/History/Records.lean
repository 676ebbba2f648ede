import Verif.History.Numbers
/-!
# The lines of the history file
-/
set_option autoImplicit false

namespace Yash.History

open Yash.Spec.History

/-! ## Numerals -/

theorem numeral_small {base n : Nat} (h : n < base) : numeral base n = [digitChar n] := by
  rw [numeral]; simp [h]

theorem numeral_large {base n : Nat} (hb : 2 ≤ base) (h : base ≤ n) : numeral base n = numeral base (n / base) ++ [digitChar (n % base)] := by
  rw [numeral]; rw [dif_neg (by omega)]

theorem numeral_digits {base : Nat} (hb : 2 ≤ base) (n : Nat) : ∃ ds : List Nat, ds ≠ [] ∧ (∀ d ∈ ds, d < base) ∧ numeral base n = ds.map digitChar ∧
    (∀ k, 1 ≤ k → n < base ^ k → ds.length ≤ k) := by
  induction n using Nat.strongRecOn with
  | ind n ih =>
    by_cases h : n < base
    · exact ⟨[n], by simp, by simpa using h, by rw [numeral_small h]; rfl, fun k hk _ => hk⟩
    · have hlt : n / base < n := Nat.div_lt_self (by omega) (by omega)
      obtain ⟨ds, h1, h2, h3, h4⟩ := ih _ hlt
      refine ⟨ds ++ [n % base], by simp, ?_, ?_, ?_⟩
      · intro d hd
        rcases List.mem_append.mp hd with hd | hd
        · exact h2 d hd
        · simp at hd; rw [hd]; exact Nat.mod_lt _ (by omega)
      · rw [numeral_large hb (by omega), h3]; simp
      · intro k hk hlt
        have hk2 : 2 ≤ k := by
          refine Classical.byContradiction fun hc => ?_
          have : k = 1 := by omega
          subst this
          simp at hlt
          omega
        have := h4 (k - 1) (by omega) (by
          obtain ⟨k, rfl⟩ : ∃ j, k = j + 1 := ⟨k - 1, by omega⟩
          rw [Nat.add_sub_cancel]
          rw [Nat.pow_succ] at hlt
          exact Nat.div_lt_of_lt_mul (by rw [Nat.mul_comm]; exact hlt))
        simp
        omega

theorem digitChar_hex : ∀ d < 16, digitChar d ∈ "0123456789ABCDEF".toList := by decide +kernel

theorem numeral_head {base : Nat} (hb : 2 ≤ base) (n : Nat) : ∃ d rest, d < base ∧ numeral base n = digitChar d :: rest := by
  obtain ⟨ds, h1, h2, h3, _⟩ := numeral_digits hb n
  cases ds with
  | nil => exact absurd rfl h1
  | cons d ds => exact ⟨d, ds.map digitChar, h2 d (by simp), by rw [h3]; rfl⟩

theorem numeral_length {base : Nat} (hb : 2 ≤ base) {n k : Nat} (hk : 1 ≤ k) (h : n < base ^ k) : (numeral base n).length ≤ k := by
  obtain ⟨ds, _, _, h3, h4⟩ := numeral_digits hb n
  rw [h3, List.length_map]
  exact h4 k hk h

theorem digitChar_graph : ∀ d < 16, digitChar d ≠ '\n' := by decide +kernel

theorem numeral_clean {base : Nat} (hb : 2 ≤ base) (hb2 : base ≤ 16) (n : Nat) : '\n' ∉ numeral base n := by
  obtain ⟨ds, _, h2, h3, _⟩ := numeral_digits hb n
  rw [h3]
  intro hm
  obtain ⟨d, hd, he⟩ := List.mem_map.mp hm
  exact digitChar_graph d (by have := h2 d hd; omega) he

/-! ## The C library -/

/-- Numbers that fit in 64 bits. -/
def word : Nat := 16 ^ 16

/-- What is assumed about the C library: numbers that were printed are read back, and short lines are not skipped. -/
structure LibcOk (L : Libc) : Prop where
  hex_colon : ∀ n r, n < word → L.hex (numeral 16 n ++ ':' :: r) = some (n, ':' :: r)
  hex_space : ∀ n r, n < word → L.hex (numeral 16 n ++ ' ' :: r) = some (n, ' ' :: r)
  hex_end : ∀ n, n < word → L.hex (numeral 16 n) = some (n, [])
  xdigit : ∀ d, d < 16 → L.xdigit (digitChar d) = true
  space : L.space ' ' = true
  digit : ∀ d, d < 10 → L.digit (digitChar d) = true
  long : ∀ n, n ≤ L.longMax → L.long (numeral 10 n) = some n
  long_le : ∀ s n, L.long s = some n → n ≤ L.longMax
  longMax : L.longMax < 10 ^ 20
  intmax_pos : ∀ n, n ≤ L.longMax → L.intmax (numeral 10 n) = some ((n : Int), [])
  intmax_neg : ∀ n, n ≤ L.longMax → L.intmax ('-' :: numeral 10 n) = some (-(n : Int), [])
  lineMax : 64 ≤ L.lineMax
  skipped : ∀ line : Str, line.length < L.lineMax → L.skipped line = false

/-- A line of the history file. -/
inductive Rec where
  | entry (e : Entry)
  | last
  | del (n : Nat)
  | join (pid : Nat)
  | leave (pid : Nat)

def Rec.text : Rec → Str
  | .entry e => entryText e
  | .last => ['c']
  | .del n => 'd' :: numeral 16 n
  | .join pid => 'p' :: numeral 10 pid
  | .leave pid => 'p' :: '-' :: numeral 10 pid

/-- An entry that can be written and read back. -/
structure EntryOk (L : Libc) (P : Params) (clock : Nat) (e : Entry) : Prop where
  number : 1 ≤ e.number ∧ e.number ≤ P.max
  time : ∀ t, e.time = some t → t ≤ clock
  short : e.value.length + 34 < L.lineMax
  clean : '\n' ∉ e.value

def Rec.Ok (L : Libc) (P : Params) (clock : Nat) : Rec → Prop
  | .entry e => EntryOk L P clock e
  | .last => True
  | .del n => n ≤ P.max
  | .join pid => 0 < pid ∧ pid ≤ L.longMax
  | .leave pid => 0 < pid ∧ pid ≤ L.longMax

theorem EntryOk.mono {L : Libc} {P : Params} {c c' : Nat} (hc : c ≤ c') {e : Entry} (h : EntryOk L P c e) : EntryOk L P c' e :=
  ⟨h.number, fun t ht => Nat.le_trans (h.time t ht) hc, h.short, h.clean⟩

theorem Rec.Ok.mono {L : Libc} {P : Params} {c c' : Nat} (hc : c ≤ c') {r : Rec} (h : r.Ok L P c) : r.Ok L P c' := by
  cases r with
  | entry e => exact EntryOk.mono hc h
  | _ => exact h

/-- What a line does to the list and the shells. -/
def applyRec (P : Params) : Rec → List Entry × List Nat → Option (List Entry × List Nat)
  | .entry e, (l, ps) => (newEntry P e.number e.time e.value l).map fun l' => (l', ps)
  | .last, (l, ps) => some (l.dropLast, ps)
  | .del n, (l, ps) =>
    if l.isEmpty then some (l, ps)
    else
      (search P n l).bind fun r =>
        match r.prev with
        | some i => some (if r.prev = r.next then l.eraseIdx i else l, ps)
        | none => if r.next.isNone then none else some (l, ps)
  | .join pid, (l, ps) => some (l, addPid pid ps)
  | .leave pid, (l, ps) => some (l, ps.filter (· ≠ pid))

def replay (P : Params) : List Rec → List Entry × List Nat → Option (List Entry × List Nat)
  | [], s => some s
  | r :: rs, s => (applyRec P r s).bind (replay P rs)

theorem replay_append (P : Params) (rs ts : List Rec) (s : List Entry × List Nat) : replay P (rs ++ ts) s = (replay P rs s).bind (replay P ts) := by
  induction rs generalizing s with
  | nil => rfl
  | cons r rs ih =>
    rw [List.cons_append, replay, replay]
    cases applyRec P r s with
    | none => rfl
    | some s' => rw [Option.bind_some, Option.bind_some, ih]

theorem word_lt : word = 16 ^ 16 := rfl

theorem text_length {L : Libc} (hL : LibcOk L) {P : Params} (hP : P.max < word) {clock : Nat} (hc : clock < word) {r : Rec} (h : r.Ok L P clock) : r.text.length < L.lineMax := by
  have h16 : ∀ n, n < word → (numeral 16 n).length ≤ 16 := fun n hn => numeral_length (by decide) (by decide) hn
  have h10 : ∀ n, n ≤ L.longMax → (numeral 10 n).length ≤ 20 := fun n hn => numeral_length (by decide) (by decide) (Nat.lt_of_le_of_lt hn hL.longMax)
  have hl := hL.lineMax
  cases r with
  | entry e =>
    obtain ⟨hn, ht, hs, _⟩ := h
    have := h16 e.number (by omega)
    simp only [Rec.text, entryText]
    cases htm : e.time with
    | none => simp only [List.length_append, List.length_cons]; omega
    | some t =>
      have := h16 t (by have := ht t htm; omega)
      simp only [List.length_append, List.length_cons]; omega
  | last => simp only [Rec.text, List.length_cons, List.length_nil]; omega
  | del n =>
    simp only [Rec.Ok] at h
    have := h16 n (by omega)
    simp only [Rec.text, List.length_cons]; omega
  | join pid =>
    have := h10 pid h.2
    simp only [Rec.text, List.length_cons]; omega
  | leave pid =>
    have := h10 pid h.2
    simp only [Rec.text, List.length_cons]; omega

theorem text_clean {L : Libc} {P : Params} {clock : Nat} {r : Rec} (h : r.Ok L P clock) : '\n' ∉ r.text := by
  have h16 := numeral_clean (base := 16) (by decide) (by decide)
  have h10 := numeral_clean (base := 10) (by decide) (by decide)
  cases r with
  | entry e =>
    have := h.clean
    have := h16 e.number
    simp only [Rec.text, entryText]
    cases e.time with
    | none => simp_all
    | some t => have := h16 t; simp_all
  | last => decide
  | del n => have := h16 n; simp_all [Rec.text]
  | join pid => have := h10 pid; simp_all [Rec.text]
  | leave pid => have := h10 pid; simp_all [Rec.text]

/-- Reading a line does what the line means. -/
theorem readLine_text {L : Libc} (hL : LibcOk L) {P : Params} (hP : P.max < word) {clock now : Nat} (hcn : clock ≤ now) (hn : now < word) {r : Rec} (h : r.Ok L P clock) (sh : Shell) :
    readLine L P now r.text sh = (applyRec P r (sh.list, sh.pids)).map fun s => { sh with list := s.1, pids := s.2, lines := sh.lines + 1 } := by
  cases r with
  | entry e =>
    obtain ⟨d, rest, hd, hnum⟩ := numeral_head (base := 16) (by decide) e.number
    have hdm := digitChar_hex d hd
    have hnw : e.number < word := by have := h.number; omega
    have hnp : ¬ e.number > P.max := by have := h.number; omega
    have key : parseEntry L P now (entryText e) sh.list = newEntry P e.number e.time e.value sh.list := by
      cases htm : e.time with
      | none =>
        simp only [parseEntry, entryText, htm, hL.hex_space _ _ hnw]
        simp [hnp, hL.space]
      | some t =>
        have htn : t ≤ now := Nat.le_trans (h.time t htm) hcn
        obtain ⟨d', rest', hd', hnum'⟩ := numeral_head (base := 16) (by decide) t
        have hx : entryText e = numeral 16 e.number ++ ':' :: (numeral 16 t ++ ' ' :: e.value) := by simp [entryText, htm]
        have hsp := hL.hex_space t e.value (by omega)
        rw [hx, parseEntry, hL.hex_colon _ _ hnw]
        simp only [List.isEmpty_cons, Bool.false_or, decide_eq_true_eq, hnp, if_false]
        rw [hnum'] at hsp ⊢
        simp only [List.cons_append, hL.xdigit d' hd', if_true] at hsp ⊢
        rw [hsp]
        simp only [List.isEmpty_cons, Bool.false_eq_true, if_false, if_neg (Nat.not_lt.mpr htn), hL.space, if_true]
    have hc : ∃ c cs, entryText e = c :: cs ∧ c ∈ "0123456789ABCDEF".toList := by
      simp only [entryText]
      cases e.time with
      | none => exact ⟨digitChar d, rest ++ ' ' :: e.value, by simp only [hnum]; rfl, hdm⟩
      | some t => exact ⟨digitChar d, rest ++ ':' :: numeral 16 t ++ ' ' :: e.value, by simp only [hnum]; rfl, hdm⟩
    obtain ⟨c, cs, hcs, hcm⟩ := hc
    simp only [Rec.text, applyRec]
    rw [hcs] at key ⊢
    simp only [readLine, if_pos hcm, key, Option.map_map]
    rfl
  | last => rfl
  | del n =>
    simp only [Rec.Ok] at h
    obtain ⟨d, rest, hd, hnum⟩ := numeral_head (base := 16) (by decide) n
    have hne : (numeral 16 n).isEmpty = false := by rw [hnum]; rfl
    have hnp : ¬ n > P.max := by omega
    have key : parseRemoved L P (numeral 16 n) sh.list = (applyRec P (.del n) (sh.list, sh.pids)).map (·.1) := by
      rw [parseRemoved, hne, applyRec]
      by_cases hl : sh.list.isEmpty = true
      · rw [if_pos (by simp [hl]), if_pos hl]; rfl
      · have hl' : sh.list.isEmpty = false := by simpa using hl
        simp only [hl', Bool.false_or, Bool.false_eq_true, if_false, hL.hex_end n (by omega), List.head?_nil, Option.map_none, Option.getD_none, Bool.not_true,
          decide_eq_true_eq, hnp]
        simp only [Option.bind_eq_bind]
        cases search P n sh.list with
        | none => rfl
        | some r =>
          simp only [Option.bind_some]
          cases r.prev with
          | some i => rfl
          | none => simp only; split <;> rfl
    have hpids : ∀ s, applyRec P (.del n) (sh.list, sh.pids) = some s → s.2 = sh.pids := by
      intro s hs
      rw [applyRec] at hs
      split at hs
      · cases hs; rfl
      · obtain ⟨r, _, hs⟩ := Option.bind_eq_some_iff.mp hs
        split at hs
        · cases hs; rfl
        · split at hs <;> cases hs; rfl
    have h1 : readLine L P now (Rec.del n).text sh = (parseRemoved L P (numeral 16 n) sh.list).map fun l => { sh with lines := sh.lines + 1, list := l } := rfl
    rw [h1, key, Option.map_map]
    cases hs : applyRec P (.del n) (sh.list, sh.pids) with
    | none => rfl
    | some s => simp only [Option.map_some, Function.comp, hpids s hs]
  | join pid =>
    obtain ⟨d, rest, hd, hnum⟩ := numeral_head (base := 10) (by decide) pid
    have hne : (numeral 10 pid).isEmpty = false := by rw [hnum]; rfl
    have key : parsePid L (numeral 10 pid) sh.pids = addPid pid sh.pids := by
      simp [parsePid, hne, hL.intmax_pos pid h.2, h.1]
    have h1 : readLine L P now (Rec.join pid).text sh = some { sh with lines := sh.lines + 1, pids := parsePid L (numeral 10 pid) sh.pids } := rfl
    rw [h1, key]
    rfl
  | leave pid =>
    have key : parsePid L ('-' :: numeral 10 pid) sh.pids = sh.pids.filter (· ≠ pid) := by
      have h0 := h.1
      simp only [parsePid, List.isEmpty_cons, Bool.false_eq_true, if_false, hL.intmax_neg pid h.2, List.head?_nil, Option.map_none, Option.getD_none, Bool.not_true]
      rw [if_neg (by omega), if_pos (by omega)]
      simp
    have h1 : readLine L P now (Rec.leave pid).text sh = some { sh with lines := sh.lines + 1, pids := parsePid L ('-' :: numeral 10 pid) sh.pids } := rfl
    rw [h1, key]
    rfl

/-- Reading lines does what they mean. -/
theorem readLines_texts {L : Libc} (hL : LibcOk L) {P : Params} (hP : P.max < word) {clock now : Nat} (hcn : clock ≤ now) (hn : now < word) (rs : List Rec)
    (h : ∀ r ∈ rs, r.Ok L P clock) (sh : Shell) :
    readLines L P now (rs.map Rec.text) sh = (replay P rs (sh.list, sh.pids)).map fun s => { sh with list := s.1, pids := s.2, lines := sh.lines + rs.length } := by
  induction rs generalizing sh with
  | nil => rfl
  | cons r rs ih =>
    have hr := h r (by simp)
    rw [List.map_cons, readLines, if_neg (by rw [hL.skipped _ (text_length hL hP (by omega) hr)]; simp), readLine_text hL hP hcn hn hr, replay]
    cases applyRec P r (sh.list, sh.pids) with
    | none => rfl
    | some s =>
      simp only [Option.map_some, Option.bind_some]
      rw [ih (fun r hr => h r (by simp [hr]))]
      cases replay P rs s with
      | none => rfl
      | some s' =>
        simp only [Option.map_some, List.length_cons]
        rw [Nat.add_assoc, Nat.add_comm 1]

/-! ## The set of shells -/

/-- The list does not depend on the shells, and sets of shells stay the same. -/
theorem applyRec_pids {P : Params} {r : Rec} {l l' : List Entry} {ps ps' : List Nat} (h : applyRec P r (l, ps) = some (l', ps')) (qs : List Nat) :
    ∃ qs', applyRec P r (l, qs) = some (l', qs') ∧ (∀ x, x ∈ qs' ↔ match r with
      | .join pid => x ∈ qs ∨ x = pid
      | .leave pid => x ∈ qs ∧ x ≠ pid
      | _ => x ∈ qs) := by
  cases r with
  | entry e =>
    simp only [applyRec] at h ⊢
    obtain ⟨l2, h2, h3⟩ := Option.map_eq_some_iff.mp h
    cases h3
    exact ⟨qs, by rw [h2]; rfl, fun x => Iff.rfl⟩
  | last => cases h; exact ⟨qs, rfl, fun x => Iff.rfl⟩
  | del n =>
    refine ⟨qs, ?_, fun x => Iff.rfl⟩
    rw [applyRec] at h ⊢
    split at h
    · rename_i hl; cases h; rw [if_pos hl]
    · rename_i hl
      rw [if_neg hl]
      obtain ⟨r, hr, h⟩ := Option.bind_eq_some_iff.mp h
      rw [hr, Option.bind_some]
      split at h
      · cases h; rfl
      · split at h
        · cases h
        · rename_i hx; cases h; rw [if_neg hx]
  | join pid =>
    cases h
    refine ⟨addPid pid qs, rfl, fun x => ?_⟩
    simp only [addPid]
    split
    · constructor
      · exact Or.inl
      · rintro (h | rfl) <;> assumption
    · simp
  | leave pid =>
    cases h
    exact ⟨_, rfl, fun x => by simp⟩

theorem replay_pids {P : Params} {rs : List Rec} {l l' : List Entry} {ps ps' : List Nat} (h : replay P rs (l, ps) = some (l', ps')) {qs : List Nat} (pid : Nat)
    (h1 : ∀ x ∈ ps, x ∈ qs) (h2 : ∀ x ∈ qs, x ∈ ps ∨ x = pid) :
    ∃ qs', replay P rs (l, qs) = some (l', qs') ∧ (∀ x ∈ ps', x ∈ qs') ∧ (∀ x ∈ qs', x ∈ ps' ∨ x = pid) := by
  induction rs generalizing l ps qs with
  | nil => cases h; exact ⟨qs, rfl, h1, h2⟩
  | cons r rs ih =>
    rw [replay] at h
    obtain ⟨⟨l2, ps2⟩, ha, hr⟩ := Option.bind_eq_some_iff.mp h
    obtain ⟨_, hb1, hb2⟩ := applyRec_pids ha ps
    rw [ha] at hb1
    cases hb1
    obtain ⟨qs2, hq1, hq2⟩ := applyRec_pids ha qs
    obtain ⟨qs', hf1, hf2, hf3⟩ := ih hr (qs := qs2) (by
        intro x hx
        rw [hq2]
        rw [hb2] at hx
        cases r with
        | join p => rcases hx with hx | hx
                    · exact Or.inl (h1 x hx)
                    · exact Or.inr hx
        | leave p => exact ⟨h1 x hx.1, hx.2⟩
        | entry e => exact h1 x hx
        | last => exact h1 x hx
        | del n => exact h1 x hx) (by
        intro x hx
        rw [hb2]
        rw [hq2] at hx
        cases r with
        | join p => rcases hx with hx | hx
                    · rcases h2 x hx with h | h
                      · exact Or.inl (Or.inl h)
                      · exact Or.inr h
                    · exact Or.inl (Or.inr hx)
        | leave p =>
          rcases h2 x hx.1 with h | h
          · exact Or.inl ⟨h, hx.2⟩
          · exact Or.inr h
        | entry e => exact h2 x hx
        | last => exact h2 x hx
        | del n => exact h2 x hx)
    exact ⟨qs', by rw [replay, hq1, Option.bind_some, hf1], hf2, hf3⟩

/-- The shells do not matter for the list; equal sets stay equal. -/
theorem replay_same {P : Params} {rs : List Rec} {l l' : List Entry} {ps ps' : List Nat} (h : replay P rs (l, ps) = some (l', ps')) {qs : List Nat}
    (he : ∀ x, x ∈ qs ↔ x ∈ ps) : ∃ qs', replay P rs (l, qs) = some (l', qs') ∧ ∀ x, x ∈ qs' ↔ x ∈ ps' := by
  induction rs generalizing l ps qs with
  | nil => cases h; exact ⟨qs, rfl, he⟩
  | cons r rs ih =>
    rw [replay] at h
    obtain ⟨⟨l2, ps2⟩, ha, hr⟩ := Option.bind_eq_some_iff.mp h
    obtain ⟨_, hb1, hb2⟩ := applyRec_pids ha ps
    rw [ha] at hb1
    cases hb1
    obtain ⟨qs2, hq1, hq2⟩ := applyRec_pids ha qs
    obtain ⟨qs', hf1, hf2⟩ := ih hr (qs := qs2) (by
        intro x
        rw [hq2, hb2]
        cases r <;> simp only [he])
    exact ⟨qs', by rw [replay, hq1, Option.bind_some, hf1], hf2⟩

/-! ## Writing everything -/

/-- An entry is appended to a history if the result is good. -/
theorem newEntry_snoc {P : Params} (hP : Sane P) {l : List Entry} {e : Entry} (h : Good P (l ++ [e])) : newEntry P e.number e.time e.value l = some (l ++ [e]) := by
  have hr := h.2.1 e.number (by simp)
  obtain ⟨l', hl', hg, k, hk, hj⟩ := newEntry_appended (P := P) (by have := hP.size; omega) e.time e.value (good_sublist h (List.sublist_append_left l [e])) hr.1 hr.2
  rw [hl', hk]
  cases k with
  | zero => rfl
  | succ k => exact absurd (by simpa using h) (hj 0 (by omega))

theorem replay_entries {P : Params} (hP : Sane P) (es l : List Entry) (h : Good P (l ++ es)) (ps : List Nat) : replay P (es.map Rec.entry) (l, ps) = some (l ++ es, ps) := by
  induction es generalizing l with
  | nil => simp [replay]
  | cons e es ih =>
    have h1 : Good P (l ++ [e]) := good_sublist h (by
      have : l ++ e :: es = (l ++ [e]) ++ es := by simp
      rw [this]
      exact List.sublist_append_left _ _)
    rw [List.map_cons, replay, applyRec, newEntry_snoc hP h1]
    simp only [Option.map_some, Option.bind_some]
    rw [ih (l ++ [e]) (by simpa using h)]
    simp

theorem replay_joins {P : Params} (pids ps : List Nat) (l : List Entry) : ∃ qs, replay P (pids.map Rec.join) (l, ps) = some (l, qs) ∧ ∀ x, x ∈ qs ↔ x ∈ ps ∨ x ∈ pids := by
  induction pids generalizing ps with
  | nil => exact ⟨ps, rfl, by simp⟩
  | cons p pids ih =>
    obtain ⟨qs, h1, h2⟩ := ih (addPid p ps)
    refine ⟨qs, ?_, ?_⟩
    · rw [List.map_cons, replay, applyRec, Option.bind_some, h1]
    · intro x
      rw [h2]
      simp only [addPid]
      split
      · rename_i hp
        constructor
        · rintro (h | h)
          · exact Or.inl h
          · exact Or.inr (by simp [h])
        · rintro (h | h)
          · exact Or.inl h
          · rcases List.mem_cons.mp h with rfl | h
            · exact Or.inl hp
            · exact Or.inr h
      · simp only [List.mem_append, List.mem_cons]
        constructor
        · rintro ((h | h | h) | h)
          · exact Or.inl h
          · exact Or.inr (Or.inl h)
          · cases h
          · exact Or.inr (Or.inr h)
        · rintro (h | h | h)
          · exact Or.inl (Or.inl h)
          · exact Or.inl (Or.inr (Or.inl h))
          · exact Or.inr h

end Yash.History
