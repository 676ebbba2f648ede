import Verif.Sig.NameLemmas
import Verif.Expand.LineProps
/-!
# C54: signal names, and the output of `trap`
-/
set_option autoImplicit false

namespace Yash.Sig.Names
open Spec
open Yash.TestBuiltin (World isDigit xwcstoi)
open Yash.Expand (Env ReadsLine WordText quoteAsWord Ordinary lineOf)
open Yash.Syntax (Special Src)

variable {W : World} {T : Table}

/-- **C54**, names.  A string is accepted as a signal exactly if it is a valid number or a name of a signal, with or without
the prefix `SIG`, or `EXIT`; the result is that signal.  The only exception is the notation `RTMAX-0`. -/
theorem C54_names_partial (hT : Table.Ok T) (s : Str) :
    (∀ n, 0 ≤ n → (getSignalNumber W T s = some n ↔ Denotes T s n)) ∧
    ((¬ ∃ n, Denotes T s n) → ¬ Forbidden s → getSignalNumber W T s = some (-1)) := by
  obtain ⟨h1, h2, h3, h4⟩ := number_spec (W := W) hT s
  refine ⟨fun n hn => ⟨fun h => ?_, h1 n⟩, ?_⟩
  · rcases h4 n h with rfl | h
    · omega
    · exact h
  · intro hd hf
    cases h : getSignalNumber W T s with
    | none => exact absurd (h3 h) hf
    | some n =>
      rcases h4 n h with rfl | h
      · rfl
      · exact absurd ⟨n, h⟩ hd

/-- `RTMAX-0`, in whatever way the zero is written, makes an assertion fail. -/
theorem C54_rtmax_zero (hT : Table.Ok T) (s : Str) : getSignalNumber W T s = none ↔ Forbidden s :=
  ⟨(number_spec hT s).2.2.1, (number_spec hT s).2.1⟩

/-- **C54**, round trip.  The name that the shell gives to a signal is understood as that signal, also with the prefix
`SIG`. -/
theorem C54_roundtrip (hT : Table.Ok T) (n : Int) (hv : Valid T n) :
    getSignalNumber W T (getSignalName T n) = some n ∧
    (n ≠ 0 → getSignalNumber W T ("SIG".toList ++ getSignalName T n) = some n) := by
  by_cases h0 : n = 0
  · subst h0; exact ⟨rfl, fun h => absurd rfl h⟩
  · have := name_spec h0 hv
    exact ⟨(number_spec hT _).1 n (.plain _ _ this), fun _ => (number_spec hT _).1 n (.sig _ _ this)⟩

/-! ## `kill -l` -/

/-- Letters, digits and signs as in names. -/
def NameChar (c : Char) : Prop := ('A' ≤ c ∧ c ≤ 'Z') ∨ ('0' ≤ c ∧ c ≤ '9') ∨ c = '+' ∨ c = '-'

instance (c : Char) : Decidable (NameChar c) := by unfold NameChar; infer_instance

theorem numeral_chars {s : Str} {n : Nat} (h : Numeral s n) : ∀ c ∈ s, '0' ≤ c ∧ c ≤ '9' := by
  intro c hc
  have := List.all_eq_true.1 ((numeral_iff s n).1 h).2.1 c hc
  simpa [isDigit] using this

theorem name_chars (hT : Table.Ok T) {s : Str} {n : Int} (h : Name T s n) : ∀ c ∈ s, NameChar c := by
  have lit : ∀ (l : Str), (l.all fun c => decide (NameChar c)) = true → ∀ c ∈ l, NameChar c := by
    intro l hl c hc
    exact of_decide_eq_true (List.all_eq_true.1 hl c hc)
  cases h with
  | table _ _ h =>
    intro c hc
    rcases hT.letters _ h c hc with h | h
    · exact Or.inl h
    · exact Or.inr (Or.inl h)
  | rtmin => exact lit _ (by decide)
  | rtmax => exact lit _ (by decide)
  | above s k h _ =>
    intro c hc
    rcases List.mem_append.1 hc with hc | hc
    · exact lit "RTMIN+".toList (by decide) c hc
    · exact Or.inr (Or.inl (numeral_chars h c hc))
  | below s k h _ _ =>
    intro c hc
    rcases List.mem_append.1 hc with hc | hc
    · exact lit "RTMAX-".toList (by decide) c hc
    · exact Or.inr (Or.inl (numeral_chars h c hc))

theorem name_ne_nil (hT : Table.Ok T) {s : Str} {n : Int} (h : Name T s n) : s ≠ [] := by
  obtain ⟨⟨c, r, h, _⟩, _⟩ := h.facts hT
  simp [h]

/-- **C54**, `kill -l`.  For a signal, its number, the status of a program killed by it as the shell shows it (384 more) and
as other programs see it (128 more) are all translated to its name. -/
theorem C54_kill_l (hT : Table.Ok T) (upper : Char → Char) (n k : Nat) (hn : 0 < n) (h128 : n < 128) (hv : Valid T n)
    (hk : k = n ∨ k = n + 128 ∨ k = n + 384) (s : Str) (hs : Numeral s k) :
    killList upper W T s = some (some (getSignalName T n)) := by
  obtain ⟨c, r, rfl, hc⟩ := hs.head
  unfold killList
  rw [(x_digits hc (k : Int)).2 ⟨k, hs, rfl, by omega⟩]
  have : (if (384 : Int) ≤ (k : Int) then (k : Int) - 384 else if 128 ≤ (k : Int) then (k : Int) - 128 else (k : Int)) = n := by
    rcases hk with rfl | rfl | rfl <;> split <;> first | omega | (split <;> omega)
  dsimp only
  rw [if_pos (by omega), this, Option.map_some, if_neg]
  rintro (h | h)
  · omega
  · exact name_ne_nil hT (name_spec (T := T) (n := n) (by omega) hv) h

/-- **C54**, `kill -l` of a name that the shell has printed prints the same name. -/
theorem C54_kill_l_name (hT : Table.Ok T) (upper : Char → Char) (hup : ∀ c, NameChar c → upper c = c)
    (hsp : ∀ c, 'A' ≤ c ∧ c ≤ 'Z' → W.isSpace c = false) (n : Int) (hn : 0 < n) (hv : Valid T n) : killList upper W T (getSignalName T n) = some (some (getSignalName T n)) := by
  have hname := name_spec (T := T) (n := n) (by omega) hv
  have hmap : (getSignalName T n).map upper = getSignalName T n := by
    conv => rhs; rw [← List.map_id (getSignalName T n)]
    exact List.map_congr_left fun c hc => hup c (name_chars hT hname c hc)
  have hx : xwcstoi W (getSignalName T n) = none := by
    obtain ⟨⟨c, r, h1, h2, h3⟩, _⟩ := hname.facts hT
    have hd : c ≠ '-' ∧ c ≠ '+' := by
      constructor <;> (rintro rfl; exact absurd h2 (by decide))
    have hsign : TestBuiltin.signOf ((c :: r).dropWhile W.isSpace) = (false, c :: r) := by
      rw [List.dropWhile_cons, hsp c ⟨h2, h3⟩, if_neg (by simp)]
      unfold TestBuiltin.signOf
      split
      · rename_i heq; cases heq; exact absurd rfl hd.1
      · rename_i heq; cases heq; exact absurd rfl hd.2
      · rfl
    cases hx : xwcstoi W (getSignalName T n) with
    | none => rfl
    | some m =>
      rw [h1, xwcstoi_of hsign] at hx
      obtain ⟨k, hk, _⟩ := hx
      obtain ⟨c', r', h4, h5⟩ := hk.head
      cases h4
      rw [letter_not_digit h2] at h5
      cases h5
  unfold killList
  rw [hx]
  dsimp only
  rw [getSignalNumberToupper, hmap, (C54_roundtrip hT n hv).1, Option.map_some, if_neg]
  rintro (h | h)
  · omega
  · exact name_ne_nil hT hname h

/-! ## The output of `trap` -/

/-- Commands that the user can have set: those that result from any sequence of `trap` commands when no traps were set. -/
inductive Reachable (may : Int → Bool) (upper : Char → Char) (W : World) (T : Table) : Commands → Prop
  | start : Reachable may upper W T (fun _ => none)
  | trap (operands : List Str) (cs cs' : Commands) : Reachable may upper W T cs →
      trapBuiltin may upper W T operands cs = some cs' → Reachable may upper W T cs'

/-- The text consists of lines with these words. -/
inductive ReadsScript {σ : Type} (E : Env σ) (special : Special) : Str → List (List Str) → Prop
  | nil : ReadsScript E special [] []
  | cons (text rest : Str) (line : List Str) (lines : List (List Str)) :
      (∀ b, ReadsLine E special ⟨b, text⟩ line rest) → ReadsScript E special rest lines →
      ReadsScript E special text (line :: lines)

/-- Executes `trap` commands one after the other. -/
def runTraps (may : Int → Bool) (upper : Char → Char) (W : World) (T : Table) : List (List Str) → Commands → Option Commands
  | [], cs => some cs
  | operands :: rest, cs =>
    match trapBuiltin may upper W T operands cs with
    | none => none
    | some cs => runTraps may upper W T rest cs

/-- What holds for stored commands. -/
def Stored (may : Int → Bool) (T : Table) (cs : Commands) : Prop :=
  ∀ n c, cs n = some c → c ≠ ['-'] ∧ isInteger c = false ∧ Valid T n ∧ may n = true

theorem denotes_valid {s : Str} {n : Int} (h : Denotes T s n) (hT : Table.Ok T) : Valid T n := by
  have hn : ∀ {s n}, Name T s n → Valid T n := by
    intro s n h
    have := hT.le
    cases h with
    | table _ _ h => exact Or.inr (Or.inr ⟨_, h⟩)
    | rtmin => exact Or.inr (Or.inl ⟨by omega, by omega⟩)
    | rtmax => exact Or.inr (Or.inl ⟨by omega, by omega⟩)
    | above s k h h' => exact Or.inr (Or.inl ⟨by omega, h'⟩)
    | below s k h h0 h' => exact Or.inr (Or.inl ⟨h', by omega⟩)
  cases h with
  | exit => exact Or.inl rfl
  | number _ _ _ h => exact h
  | plain _ _ h => exact hn h
  | sig _ _ h => exact hn h

theorem setTraps_stored (hT : Table.Ok T) {may : Int → Bool} {upper : Char → Char} {command : Option Str}
    (hc : ∀ c, command = some c → c ≠ ['-'] ∧ isInteger c = false) (names : List Str) (cs cs' : Commands)
    (hs : Stored may T cs) (h : setTraps may upper W T command names cs = some cs') : Stored may T cs' := by
  induction names generalizing cs with
  | nil => cases h; exact hs
  | cons name names ih =>
    rw [setTraps] at h
    split at h
    · cases h
    · rename_i signum hn
      refine ih _ ?_ h
      split
      · rename_i hm
        intro n c hnc
        dsimp only at hnc
        split at hnc
        · rename_i he
          subst he
          refine ⟨(hc c hnc).1, (hc c hnc).2, ?_, hm.2⟩
          rcases (number_spec hT _).2.2.2 n hn with h1 | h1
          · omega
          · exact denotes_valid h1 hT
        · exact hs n c hnc
      · exact hs

theorem Reachable.stored (hT : Table.Ok T) {may : Int → Bool} {upper : Char → Char} {cs : Commands}
    (h : Reachable may upper W T cs) : Stored may T cs := by
  induction h with
  | start => intro n c h; cases h
  | trap operands cs cs' _ h ih =>
    unfold trapBuiltin at h
    split at h
    · cases h; exact ih
    · rename_i first rest
      split at h
      · exact setTraps_stored hT (by intro c h; cases h) _ _ _ ih h
      · rename_i hi
        split at h
        · cases h; exact ih
        · refine setTraps_stored hT ?_ _ _ _ ih h
          intro c hc
          split at hc
          · cases hc
          · rename_i hd
            cases hc
            exact ⟨hd, by simpa using hi⟩

/-- The signals that are printed, with their names. -/
def tableEntries : List Int → List (Int × Str) → List (Int × Str)
  | _, [] => []
  | printed, s :: table => if s.1 ∈ printed then tableEntries printed table else s :: tableEntries (s.1 :: printed) table

def rtEntries (T : Table) : Int → Nat → List (Int × Str)
  | _, 0 => []
  | i, n + 1 => if T.rtmin + i > T.rtmax then [] else (T.rtmin + i, getSignalName T (T.rtmin + i)) :: rtEntries T (i + 1) n

def entries (T : Table) : List (Int × Str) := (0, "EXIT".toList) :: (tableEntries [] T.table ++ rtEntries T 0 T.rtsize.toNat)

theorem printTraps_entries (L : Expand.Locale) (T : Table) (cs : Commands) :
    printTraps L T cs = (entries T).map fun e => printTrap L e.2 (cs e.1) := by
  have h1 : ∀ (table : List (Int × Str)) (printed : List Int),
      printTable L cs printed table = (tableEntries printed table).map fun e => printTrap L e.2 (cs e.1) := by
    intro table
    induction table with
    | nil => intro _; rfl
    | cons s table ih =>
      intro printed
      rw [printTable, tableEntries]
      split
      · exact ih _
      · simp [ih]
  have h2 : ∀ (n : Nat) (i : Int), printRt L T cs i n = (rtEntries T i n).map fun e => printTrap L e.2 (cs e.1) := by
    intro n
    induction n with
    | zero => intro _; rfl
    | succ n ih =>
      intro i
      rw [printRt, rtEntries]
      split
      · rfl
      · simp [ih]
  simp [printTraps, entries, h1, h2]

theorem tableEntries_sub {table : List (Int × Str)} : ∀ {printed : List Int} {e}, e ∈ tableEntries printed table → e ∈ table := by
  induction table with
  | nil => intro _ e h; cases h
  | cons s table ih =>
    intro printed e h
    rw [tableEntries] at h
    split at h
    · exact List.mem_cons_of_mem _ (ih h)
    · rcases List.mem_cons.1 h with h | h
      · rw [h]; exact List.mem_cons_self
      · exact List.mem_cons_of_mem _ (ih h)

theorem tableEntries_all {table : List (Int × Str)} : ∀ {printed : List Int} {e}, e ∈ table → e.1 ∉ printed →
    ∃ s, (e.1, s) ∈ tableEntries printed table := by
  induction table with
  | nil => intro _ e h; cases h
  | cons s table ih =>
    intro printed e h hp
    rw [tableEntries]
    split
    · rename_i hs
      rcases List.mem_cons.1 h with h | h
      · rw [h] at hp; exact absurd hs hp
      · exact ih h hp
    · by_cases he : e.1 = s.1
      · exact ⟨s.2, by rw [he]; exact List.mem_cons_self⟩
      · rcases List.mem_cons.1 h with h | h
        · exact absurd (by rw [h]) he
        · obtain ⟨x, hx⟩ := ih h (printed := s.1 :: printed) (by simp [he, hp])
          exact ⟨x, List.mem_cons_of_mem _ hx⟩

theorem rtEntries_spec (T : Table) : ∀ (n : Nat) (i : Int) (e : Int × Str), e ∈ rtEntries T i n →
    T.rtmin + i ≤ e.1 ∧ e.1 ≤ T.rtmax ∧ e.2 = getSignalName T e.1 := by
  intro n
  induction n with
  | zero => intro _ e h; cases h
  | succ n ih =>
    intro i e h
    rw [rtEntries] at h
    split at h
    · cases h
    · rcases List.mem_cons.1 h with h | h
      · subst h; exact ⟨by simp, by dsimp only; omega, rfl⟩
      · obtain ⟨h1, h2, h3⟩ := ih (i + 1) e h; exact ⟨by omega, h2, h3⟩

theorem rtEntries_all (T : Table) : ∀ (n : Nat) (i k : Int), T.rtmin + i ≤ k → k ≤ T.rtmax → k < T.rtmin + i + n →
    ∃ s, (k, s) ∈ rtEntries T i n := by
  intro n
  induction n with
  | zero => intro i k h1 h2 h3; omega
  | succ n ih =>
    intro i k h1 h2 h3
    rw [rtEntries, if_neg (by omega)]
    by_cases hk : k = T.rtmin + i
    · exact ⟨_, by rw [hk]; exact List.mem_cons_self⟩
    · obtain ⟨s, hs⟩ := ih (i + 1) k (by omega) h2 (by omega)
      exact ⟨s, List.mem_cons_of_mem _ hs⟩

/-- The names that are printed denote the signals. -/
theorem entries_names (hT : Table.Ok T) {e : Int × Str} (h : e ∈ entries T) :
    0 ≤ e.1 ∧ Denotes T e.2 e.1 ∧ e.2 ≠ [] ∧ ∀ c ∈ e.2, NameChar c := by
  have hn : ∀ {s n}, 0 ≤ n → Name T s n → 0 ≤ n ∧ Denotes T s n ∧ s ≠ [] ∧ ∀ c ∈ s, NameChar c :=
    fun h0 h => ⟨h0, .plain _ _ h, name_ne_nil hT h, name_chars hT h⟩
  rcases List.mem_cons.1 h with rfl | h
  · exact ⟨by simp, .exit, by simp, by decide⟩
  · rcases List.mem_append.1 h with h | h
    · have := tableEntries_sub h
      exact hn (by have := (hT.number _ this).1; omega) (.table _ _ this)
    · obtain ⟨h1, h2, h3⟩ := rtEntries_spec T _ _ _ h
      have := hT.rtmin
      have hname := name_spec (T := T) (n := e.1) (by omega) (Or.inr (Or.inl ⟨by omega, h2⟩))
      rw [← h3] at hname
      exact hn (by omega) hname

theorem entries_all {may : Int → Bool} (hmay : ∀ n, T.rtmin ≤ n → n ≤ T.rtmax → may n = true → n < T.rtmin + T.rtsize)
    {n : Int} (hv : Valid T n) (hm : may n = true) : ∃ s, (n, s) ∈ entries T := by
  rcases hv with rfl | h | ⟨s, h⟩
  · exact ⟨_, List.mem_cons_self⟩
  · obtain ⟨s, hs⟩ := rtEntries_all T T.rtsize.toNat 0 n (by omega) h.2 (by have := hmay n h.1 h.2 hm; omega)
    exact ⟨s, List.mem_cons_of_mem _ (List.mem_append_right _ hs)⟩
  · obtain ⟨t, ht⟩ := tableEntries_all (printed := []) h (by simp)
    exact ⟨t, List.mem_cons_of_mem _ (List.mem_append_left _ ht)⟩

/-- The operands of the printed commands. -/
def printedOperands (cs : Commands) (es : List (Int × Str)) : List (List Str) :=
  es.filterMap fun e => (cs e.1).map fun c => [c, e.2]

/-- A line of four words. -/
theorem reads_four {σ : Type} {E : Env σ} (hsp : E.locale.blank ' ' = true) (hnl : E.locale.blank '\n' = false)
    (special : Special) {a b c d a' b' c' d' p : Str} (ha : WordText E a a') (hb : WordText E b b') (hc : WordText E c c')
    (hd : WordText E d d') (hp : p = a ++ ' ' :: (b ++ [' '])) (before rest : Str) :
    ReadsLine E special ⟨before, (p ++ (c ++ ' ' :: (d ++ ['\n']))) ++ rest⟩ [a', b', c', d'] rest := by
  have := Expand.reads_line (E := E) hsp hnl special [(a, a'), (b, b'), (c, c'), (d, d')]
    (by
      intro w hw
      simp only [List.mem_cons, List.not_mem_nil, or_false] at hw
      rcases hw with rfl | rfl | rfl | rfl <;> assumption) before rest
  simp only [List.map_cons, List.map_nil, lineOf, List.append_assoc, List.cons_append, List.nil_append] at this
  simp only [hp, List.append_assoc, List.cons_append, List.nil_append]
  exact this

/-- **C54**, `trap`.  The output of `trap` consists of `trap` commands.  When they are executed in a shell in which no traps have
been set, every signal gets the command it had. -/
theorem C54_trap_restores {σ : Type} (E : Env σ) (hL : E.locale.Ok) (hR : E.long.Ok) (special : Special)
    (hsp : E.locale.blank ' ' = true) (hnl : E.locale.blank '\n' = false)
    (hal : ∀ c, ('A' ≤ c ∧ c ≤ 'Z') ∨ ('a' ≤ c ∧ c ≤ 'z') ∨ ('0' ≤ c ∧ c ≤ '9') → E.locale.alnum c = true)
    (hT : Table.Ok T) (upper : Char → Char) (hup : ∀ c, NameChar c → upper c = c) (may : Int → Bool)
    (hmay : ∀ n, T.rtmin ≤ n → n ≤ T.rtmax → may n = true → n < T.rtmin + T.rtsize)
    (cs : Commands) (hcs : Reachable may upper W T cs) :
    ∃ operands : List (List Str),
      ReadsScript E special (printTraps E.locale T cs).flatten (operands.map fun o => "trap".toList :: "--".toList :: o) ∧
      runTraps may upper W T operands (fun _ => none) = some cs := by
  classical
  have hst := hcs.stored hT
  refine ⟨printedOperands cs (entries T), ?_, ?_⟩
  · rw [printTraps_entries]
    have hnames : ∀ e ∈ entries T, e.2 ≠ [] ∧ ∀ c ∈ e.2, NameChar c := fun e he => (entries_names hT he).2.2
    have hord : ∀ c, NameChar c → Ordinary E.locale c := by
      intro c hc
      rcases hc with h | h | rfl | rfl
      · have ha := hal c (Or.inl h)
        refine ⟨?_, hL.alnum_blank c ha⟩
        intro hm
        have : ∀ d ∈ "\"'\\$`\n;&|<>(){*?[~#".toList, E.locale.alnum d = false :=
          fun d hd => hL.alnum_special d ((by decide : ∀ d ∈ "\"'\\$`\n;&|<>(){*?[~#".toList,
            d ∈ "'\"\\$`;&|<>()~#*?[]{},:=!^\n+@%".toList) d hd)
        rw [this c hm] at ha
        cases ha
      · have ha := hal c (Or.inr (Or.inr h))
        refine ⟨?_, hL.alnum_blank c ha⟩
        intro hm
        have : ∀ d ∈ "\"'\\$`\n;&|<>(){*?[~#".toList, E.locale.alnum d = false :=
          fun d hd => hL.alnum_special d ((by decide : ∀ d ∈ "\"'\\$`\n;&|<>(){*?[~#".toList,
            d ∈ "'\"\\$`;&|<>()~#*?[]{},:=!^\n+@%".toList) d hd)
        rw [this c hm] at ha
        cases ha
      · exact ⟨by decide, hL.punct_blank _ (by decide)⟩
      · exact ⟨by decide, hL.punct_blank _ (by decide)⟩
    have htrap : ∀ c ∈ "trap".toList, Ordinary E.locale c := by
      have : ∀ c ∈ "trap".toList, c ∉ "\"'\\$`\n;&|<>(){*?[~#".toList ∧ 'a' ≤ c ∧ c ≤ 'z' := by decide
      intro c hc
      exact ⟨(this c hc).1, hL.alnum_blank c (hal c (Or.inr (Or.inl (this c hc).2)))⟩
    have hdash : ∀ c ∈ "--".toList, Ordinary E.locale c := by
      intro c hc
      have : c = '-' := (by decide : ∀ c ∈ "--".toList, c = '-') c hc
      subst this
      exact hord _ (by decide)
    have hl : "trap -- ".toList = "trap".toList ++ ' ' :: ("--".toList ++ [' ']) := by decide
    generalize entries T = es at hnames
    induction es with
    | nil => exact .nil
    | cons e es ih =>
      have ih := ih fun e he => hnames e (List.mem_cons_of_mem _ he)
      rw [List.map_cons, List.flatten_cons]
      unfold printedOperands
      cases hc : cs e.1 with
      | none =>
        rw [List.filterMap_cons, hc]
        exact ih
      | some c =>
        rw [List.filterMap_cons, hc]
        refine .cons _ _ _ _ ?_ ih
        intro b
        obtain ⟨h1, h2⟩ := hnames e List.mem_cons_self
        exact reads_four hsp hnl special (Expand.plain_text hL hR _ (by decide) htrap)
          (Expand.plain_text hL hR _ (by decide) hdash) (Expand.quoted_text hL hR c)
          (Expand.plain_text hL hR _ h1 fun c hc => hord c (h2 c hc)) hl b _
  · -- executing them
    have key : ∀ (es : List (Int × Str)) (acc : Commands), (∀ e ∈ es, e ∈ entries T) →
        ∃ out, runTraps may upper W T (printedOperands cs es) acc = some out ∧
          ∀ n, out n = if (∃ s, (n, s) ∈ es) ∧ (cs n).isSome then cs n else acc n := by
      intro es
      induction es with
      | nil => intro acc _; exact ⟨acc, rfl, by simp⟩
      | cons e es ih =>
        intro acc he
        obtain ⟨h0, hd, hne, hch⟩ := entries_names hT (he e List.mem_cons_self)
        unfold printedOperands
        cases hc : cs e.1 with
        | none =>
          rw [List.filterMap_cons, hc]
          obtain ⟨out, h1, h2⟩ := ih acc fun x hx => he x (List.mem_cons_of_mem _ hx)
          refine ⟨out, h1, ?_⟩
          intro n
          rw [h2]
          by_cases hn : n = e.1
          · subst hn; simp [hc]
          · simp only [List.mem_cons]
            have : (∃ s, (n, s) = e ∨ (n, s) ∈ es) ↔ ∃ s, (n, s) ∈ es := by
              constructor
              · rintro ⟨s, h | h⟩
                · exact absurd (by rw [← h]) hn
                · exact ⟨s, h⟩
              · rintro ⟨s, h⟩; exact ⟨s, Or.inr h⟩
            simp only [this]
        | some c =>
          rw [List.filterMap_cons, hc]
          obtain ⟨s1, s2, s3, s4⟩ := hst _ _ hc
          have hmap : e.2.map upper = e.2 := by
            conv => rhs; rw [← List.map_id e.2]
            exact List.map_congr_left fun c hc => hup c (hch c hc)
          have hstep : trapBuiltin may upper W T [c, e.2] acc = some (fun n => if n = e.1 then some c else acc n) := by
            unfold trapBuiltin
            dsimp only
            rw [if_neg (by simp [s2]), if_neg (by simp), if_neg s1, setTraps, getSignalNumberToupper, hmap,
              (number_spec hT _).1 _ hd]
            dsimp only
            rw [if_pos ⟨h0, s4⟩, setTraps]
          obtain ⟨out, h1, h2⟩ := ih (fun n => if n = e.1 then some c else acc n) fun x hx => he x (List.mem_cons_of_mem _ hx)
          refine ⟨out, ?_, ?_⟩
          · simp only [Option.map_some, runTraps, hstep]
            exact h1
          · intro n
            rw [h2]
            by_cases hn : n = e.1
            · subst hn
              rw [if_pos (⟨⟨e.2, List.mem_cons_self⟩, by simp [hc]⟩ : (∃ s, (e.1, s) ∈ e :: es) ∧ (cs e.1).isSome = true)]
              split
              · rfl
              · simp [hc]
            · simp only [List.mem_cons]
              have : (∃ s, (n, s) = e ∨ (n, s) ∈ es) ↔ ∃ s, (n, s) ∈ es := by
                constructor
                · rintro ⟨s, h | h⟩
                  · exact absurd (by rw [← h]) hn
                  · exact ⟨s, h⟩
                · rintro ⟨s, h⟩; exact ⟨s, Or.inr h⟩
              simp only [this, if_neg hn]
    obtain ⟨out, h1, h2⟩ := key (entries T) (fun _ => none) fun _ h => h
    rw [h1]
    congr 1
    funext n
    rw [h2]
    cases hc : cs n with
    | none => simp
    | some c =>
      obtain ⟨_, _, s3, s4⟩ := hst _ _ hc
      obtain ⟨s, hs⟩ := entries_all hmay s3 s4
      rw [if_pos ⟨⟨s, hs⟩, by simp⟩]

/-! ## A concrete table -/

/-- Part of the table on Linux; two names of signal 6. -/
def linux : Table where
  table := [(1, "HUP".toList), (2, "INT".toList), (6, "ABRT".toList), (9, "KILL".toList), (10, "USR1".toList), (6, "IOT".toList)]
  rtmin := 34
  rtmax := 64
  rtsize := 31

theorem linux_ok : Table.Ok linux where
  rtmin := by decide
  le := by decide
  rtmax := by decide
  number := by decide
  distinct := by decide
  letters := by decide
  first := by
    intro s hs
    simp only [linux, List.mem_cons, List.not_mem_nil, or_false] at hs
    rcases hs with rfl | rfl | rfl | rfl | rfl | rfl <;> exact ⟨_, _, rfl, by decide, by decide⟩
  prefixes := by decide

example : Valid linux 6 ∧ getSignalName linux 6 = "ABRT".toList ∧ Denotes linux "SIGIOT".toList 6 :=
  ⟨by exact Or.inr (Or.inr ⟨_, by simp [linux]; exact Or.inl rfl⟩), by decide, .sig "IOT".toList 6 (.table _ _ (by simp [linux]))⟩

example : getSignalName linux 50 = "RTMAX-14".toList ∧ getSignalName linux 49 = "RTMIN+15".toList := by decide

example : Forbidden "RTMAX-0".toList := ⟨['0'], .digit 0 (by omega), Or.inl rfl⟩

/-- A number, and the statuses of a process that has been killed. -/
example : Numeral "9".toList 9 ∧ Numeral "137".toList 137 ∧ Valid linux 9 := by
  refine ⟨.digit 9 (by omega), ?_, Or.inr (Or.inr ⟨"KILL".toList, by simp [linux]⟩)⟩
  exact .snoc "13".toList 13 7 (by omega) (.snoc "1".toList 1 3 (by omega) (.digit 1 (by omega)))

/-- Traps that can be set: a command with quotes for `INT`, one for `EXIT`, and `KILL` is refused. -/
example (W : World) : ∃ cs, Reachable (fun n => decide (n ≠ 9)) (fun c => c) W linux cs ∧ cs 2 = some "echo it's".toList ∧
    cs 0 = some [] ∧ cs 9 = none := by
  have h1 : trapBuiltin (fun n => decide (n ≠ 9)) (fun c => c) W linux ["echo it's".toList, "INT".toList, "KILL".toList] (fun _ => none) =
      some (fun n => if n = 2 then some "echo it's".toList else none) := by
    rfl
  have h2 : trapBuiltin (fun n => decide (n ≠ 9)) (fun c => c) W linux [[], "EXIT".toList]
      (fun n => if n = 2 then some "echo it's".toList else none) =
      some (fun n => if n = 0 then some [] else if n = 2 then some "echo it's".toList else none) := by
    rfl
  exact ⟨_, .trap _ _ _ (.trap _ _ _ .start h1) h2, rfl, rfl, rfl⟩

example : Expand.cLocale.blank ' ' = true ∧ Expand.cLocale.blank '\n' = false := by decide

end Yash.Sig.Names
