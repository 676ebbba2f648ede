import Verif.Keys.Lemmas
/-!
# C81: keys and characters take effect in the order in which they are typed, and none is lost
-/
set_option autoImplicit false

namespace Yash.Keys

open Spec
open Yash.Input (Byte Decoder mbrtowc)
open Yash.Input.Spec (OneChar Text)

variable {T S Cmd : Type} {E : Terminal T S Cmd} {code : List Byte → Option (List Char)} {bound : S → List Char → Option Cmd}

/-! ## No assertion fails -/

theorem wideLoop_some : ∀ (n : Nat) (r : Reader T S), r.first.length < n → ∃ r', wideLoop E n r = some r' := by
  intro n
  induction n with
  | zero => intro _ h; omega
  | succ n ih =>
    intro r hn
    rw [wideLoop]
    split
    · exact ⟨_, rfl⟩
    · rename_i he
      have hpos : 0 < r.first.length := List.length_pos_iff.2 (by simpa using he)
      split
      · exact ih _ (by simp only [List.length_nil]; omega)
      · exact ⟨_, rfl⟩
      · exact ⟨_, rfl⟩
      · exact ih _ (by simp only [List.length_drop]; omega)

theorem processWide_some (h : Maps E code bound) (r : Reader T S) : ∃ r', processWide E r = some r' := by
  obtain ⟨r1, h1⟩ := wideLoop_some (E := E) (r.first.length + 1) r (Nat.lt_succ_self _)
  obtain ⟨x, y, h2, -⟩ := processKeymap_acts h r1
  exact ⟨_, by rw [processWide, h1]; exact h2⟩

def isTimeout : Ev → Bool
  | .timeout => true
  | _ => false

theorem readNext_eq (r : Reader T S) (ev : Ev) (h1 : ev ≠ .interrupted) (h2 : ev ≠ .error) (h3 : ev = .timeout → r.ambiguous = true) :
    readNext E r ev = (if r.incomplete || E.verbatim r.ed then processWide E { r with first := r.first ++ received E ev }
      else
        match codeLoop E (isTimeout ev) ((r.first ++ received E ev).length + 1) (r.first ++ received E ev) r.second with
        | none => none
        | some (.wide, amb, first, second) => processWide E { r with first := first, second := second, ambiguous := amb }
        | some (.keymap, amb, first, second) => processKeymap E { r with first := first, second := second, ambiguous := amb }) := by
  cases ev with
  | timeout =>
    obtain ⟨a, b, c, d, e, f⟩ := r
    obtain rfl : e = true := h3 rfl
    rfl
  | interrupted => exact absurd rfl h1
  | error => exact absurd rfl h2
  | typed b => rfl
  | pre b => rfl

theorem readNext_late (r : Reader T S) (h : r.ambiguous = false) : readNext E r .timeout = some r := by
  obtain ⟨a, b, c, d, e, f⟩ := r
  obtain rfl : e = false := h
  rfl

/-- Whatever is typed, and whatever the state is: no assertion fails, and there is no endless loop. -/
theorem reading_never_fails (h : Maps E code bound) (evs : List Ev) : ∀ r : Reader T S, ∃ r', run E r evs = some r' := by
  induction evs with
  | nil => intro r; exact ⟨r, rfl⟩
  | cons ev evs ih =>
    intro r
    rw [run]
    split
    · have : ∃ r1, readNext E r ev = some r1 := by
        by_cases e1 : ev = .interrupted
        · subst e1; exact ⟨_, rfl⟩
        by_cases e2 : ev = .error
        · subst e2; exact ⟨_, rfl⟩
        by_cases e3 : ev = .timeout → r.ambiguous = true
        · rw [readNext_eq r ev e1 e2 e3]
          split
          · exact processWide_some h _
          · obtain ⟨next, amb, first', extra, h1, -⟩ := codeLoop_sorts h (isTimeout ev) ((r.first ++ received E ev).length + 1) (r.first ++ received E ev) r.second
              (Nat.lt_succ_self _)
            rw [h1]
            cases next with
            | wide => exact processWide_some h _
            | keymap =>
              obtain ⟨x, y, h2, -⟩ := processKeymap_acts h { r with first := first', second := r.second ++ extra, ambiguous := amb }
              exact ⟨_, h2⟩
        · simp only [Classical.not_imp, Bool.not_eq_true] at e3
          obtain ⟨rfl, e3⟩ := e3
          exact ⟨_, readNext_late r e3⟩
      obtain ⟨r1, h1⟩ := this
      rw [h1]
      exact ih r1
    · exact ⟨r, rfl⟩

/-! ## Nothing is lost -/

/-- What has been received is what has been read as key sequences, and what is waiting; and these are what has been given to commands, and what is waiting. -/
def Inv (E : Terminal T S Cmd) (code : List Byte → Option (List Char)) (bound : S → List Char → Option Cmd) (late : Bool) (ed0 : S)
    (input : List Byte) (r : Reader T S) : Prop :=
  ∃ st part text, Sorts E code late E.initial input text st (part ++ r.first) ∧ Begins E.decoder st part r.state ∧ (r.incomplete = false → part = []) ∧
    Acts E bound ed0 text r.ed r.second ∧ (r.incomplete = true → r.first = [])

theorem processKeymap_inv (h : Maps E code bound) {late : Bool} {ed0 : S} {input : List Byte} {r r' : Reader T S} (hi : Inv E code bound late ed0 input r)
    (hr : processKeymap E r = some r') : Inv E code bound late ed0 input r' := by
  obtain ⟨st, part, text, i1, i2, i3, i4, i5⟩ := hi
  obtain ⟨second, ed, h1, h2⟩ := processKeymap_acts h r
  rw [h1] at hr
  cases hr
  exact ⟨st, part, text, i1, i2, i3, i4.trans h2, i5⟩

theorem processWide_inv (h : Maps E code bound) (hv : NoVerbatim E) {late : Bool} {ed0 : S} {input : List Byte} {r r' : Reader T S} {st : T} {part : List Byte}
    {text : List Char} (i1 : Sorts E code late E.initial input text st (part ++ r.first)) (i2 : Begins E.decoder st part r.state)
    (i3 : r.incomplete = false → part = []) (i4 : Acts E bound ed0 text r.ed r.second) (hr : processWide E r = some r') :
    Inv E code bound late ed0 input r' := by
  obtain ⟨state, inc, st', part', extra, g1, g2, g3, g4⟩ := wideLoop_sorts (code := code) (late := late) hv _ r st part (Nat.lt_succ_self _) i2 i3
  rw [processWide, g1] at hr
  refine processKeymap_inv h ⟨st', part', text ++ extra, ?_, g3, g4, i4.append extra, fun _ => rfl⟩ hr
  rw [List.append_nil]
  exact i1.trans g2

theorem readNext_inv (h : Maps E code bound) (hv : NoVerbatim E) {late : Bool} {ed0 : S} {input : List Byte} {r r' : Reader T S} (ev : Ev)
    (hl : ev = .timeout → late = true) (hs : ev ≠ .interrupted ∧ ev ≠ .error) (hi : Inv E code bound late ed0 input r) (hr : readNext E r ev = some r') :
    Inv E code bound late ed0 (input ++ received E ev) r' := by
  by_cases e3 : ev = .timeout → r.ambiguous = true
  · rw [readNext_eq r ev hs.1 hs.2 e3] at hr
    obtain ⟨st, part, text, i1, i2, i3, i4, i5⟩ := hi
    simp only [(hv r.ed).1, Bool.or_false] at hr
    have j1 := i1.append (received E ev)
    rw [List.append_assoc] at j1
    split at hr
    · exact processWide_inv h hv (r := { r with first := r.first ++ received E ev }) j1 i2 i3 i4 hr
    · rename_i hinc
      have hinc : r.incomplete = false := by simpa using hinc
      obtain rfl := i3 hinc
      obtain ⟨next, amb, first', extra, h1, h2⟩ := codeLoop_sorts h (isTimeout ev) ((r.first ++ received E ev).length + 1) (r.first ++ received E ev) r.second
        (Nat.lt_succ_self _)
      have h2' : Sorts E code late st (r.first ++ received E ev) extra st first' := by
        cases ev with
        | timeout => rw [hl rfl]; exact h2 st
        | typed b => exact (h2 st).toLate
        | pre b => exact (h2 st).toLate
        | interrupted => exact absurd rfl hs.1
        | error => exact absurd rfl hs.2
      rw [h1] at hr
      have k1 := j1.trans h2'
      cases next with
      | wide => exact processWide_inv h hv (r := { r with first := first', second := r.second ++ extra, ambiguous := amb }) (part := []) k1 i2 (fun _ => rfl) (i4.append extra) hr
      | keymap =>
        exact processKeymap_inv h (r := { r with first := first', second := r.second ++ extra, ambiguous := amb })
          ⟨st, [], text ++ extra, k1, i2, fun _ => rfl, i4.append extra, by simp [hinc]⟩ hr
  · simp only [Classical.not_imp, Bool.not_eq_true] at e3
    obtain ⟨rfl, e3⟩ := e3
    rw [readNext_late r e3] at hr
    cases hr
    simpa [received] using hi

theorem run_inv (h : Maps E code bound) (hv : NoVerbatim E) {late : Bool} {ed0 : S} (evs : List Ev) : ∀ (input : List Byte) (r r' : Reader T S),
    (∀ ev ∈ evs, (ev = .timeout → late = true) ∧ ev ≠ .interrupted ∧ ev ≠ .error) → Inv E code bound late ed0 input r → run E r evs = some r' →
    ∃ evs1 evs2, evs = evs1 ++ evs2 ∧ (evs2 = [] ∨ E.editing r'.ed = false) ∧ Inv E code bound late ed0 (input ++ evs1.flatMap (received E)) r' := by
  induction evs with
  | nil =>
    intro input r r' _ hi hr
    cases hr
    exact ⟨[], [], rfl, .inl rfl, by simpa using hi⟩
  | cons ev evs ih =>
    intro input r r' hall hi hr
    rw [run] at hr
    split at hr
    · cases h1 : readNext E r ev with
      | none => rw [h1] at hr; cases hr
      | some r1 =>
        rw [h1] at hr
        have hev := hall ev (by simp)
        obtain ⟨evs1, evs2, g1, g2, g3⟩ := ih _ r1 r' (fun e he => hall e (by simp [he])) (readNext_inv h hv ev hev.1 hev.2 hi h1) hr
        exact ⟨ev :: evs1, evs2, by rw [g1]; rfl, g2, by simpa using g3⟩
    · rename_i he
      cases hr
      exact ⟨[], ev :: evs, rfl, .inr (by simpa using he), by simpa using hi⟩

/-- Nothing that is typed is lost, doubled or reordered. All bytes that have been received (until the line was accepted, if it was) are read, in order,
as key sequences and characters (`Sorts`), except those that are waiting because they may be the beginning of a character (`part`) or of a key
(`r.first`); and these are given, in order, to commands (`Acts`), except those that are waiting (`r.second`).
Missing: characters that are taken verbatim (for these see `typed_is_executed`); and `Acts.unbound` gives the default command a null character for a text that begins
like a key sequence to which a command is bound (`text_like_key_lost`). -/
theorem nothing_lost_partial (h : Maps E code bound) (hv : NoVerbatim E) (ed : S) (evs : List Ev) (late : Bool)
    (hev : ∀ ev ∈ evs, (ev = .timeout → late = true) ∧ ev ≠ .interrupted ∧ ev ≠ .error) :
    ∃ r evs1 evs2, run E (idle E.initial ed) evs = some r ∧ evs = evs1 ++ evs2 ∧ (evs2 = [] ∨ E.editing r.ed = false) ∧
      ∃ text st part, Sorts E code late E.initial (evs1.flatMap (received E)) text st (part ++ r.first) ∧ Begins E.decoder st part r.state ∧
        Acts E bound ed text r.ed r.second := by
  obtain ⟨r, hr⟩ := reading_never_fails h evs (idle E.initial ed)
  have hi : Inv E code bound late ed [] (idle E.initial ed) := ⟨E.initial, [], [], .nil _ _, .nil _, fun _ => rfl, .stop _ _, by simp [idle]⟩
  obtain ⟨evs1, evs2, g1, g2, st, part, text, g3, g4, -, g5, -⟩ := run_inv h hv evs [] _ r hev hi hr
  exact ⟨r, evs1, evs2, hr, g1, g2, text, st, part, g3, g4, g5⟩

end Yash.Keys
