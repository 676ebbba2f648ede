import Verif.Complete.Lemmas
/-!
# Property C82: completion inserts what reads back as the candidate
-/
set_option autoImplicit false

namespace Yash.Complete

open Expand (Locale Env WordText)
open Spec (Open Typed LongestPrefix)

/-- The context is right about the line: the cursor is behind the word `t`, which stands between `before` and `after` and stands
for the string `v`. -/
structure OnWord (L : Locale) (c : Ctxt) (b : Buf) (before t v after : List Char) (o : Open) : Prop where
  line : b = ⟨before ++ t ++ after, (before ++ t).length⟩
  typed : Typed L o t v
  quote : c.quote = match o with
    | .nothing => .normal
    | .backslash => .normalEscaped
    | .single => .single
    | .double => .double
    | .doubleBackslash => .doubleEscaped
  src : c.src = v
  srcindex : c.srcindex = before.length
  origindex : c.origindex = (before ++ t).length
  type : c.type ≠ .tilde ∧ c.ebraced = false ∧ c.vbraced = false ∧ c.quoted = false

/-- The text is not that of an assignment to a variable: there is a quotation before any equals sign. -/
def NotAssignment (t : List Char) : Prop := ∀ n r, t = n ++ '=' :: r → ∃ q ∈ n, q = '\\' ∨ q = '\'' ∨ q = '"'

theorem OnWord.quoteOf {L : Locale} {c : Ctxt} {b : Buf} {before t v after : List Char} {o : Open}
    (h : OnWord L c b before t v after o) : c.quote = quoteOf o := by
  rw [h.quote]
  cases o <;> rfl

theorem OnWord.ending {L : Locale} {c : Ctxt} {b : Buf} {before t v after : List Char} {o : Open}
    (h : OnWord L c b before t v after o) : ending c = [' '] := by
  obtain ⟨h1, h2, h3, h4⟩ := h.type
  simp [Complete.ending, h1, h2, h3, h4]

/-- The kept part of the typed word. -/
theorem OnWord.place {L : Locale} {c : Ctxt} {b : Buf} {before t v after : List Char} {o : Open}
    (h : OnWord L c b before t v after o) : ∃ t0 y, t = t0 ++ y ∧ Typed L o.withoutBackslash t0 v ∧
      (o = o.withoutBackslash → y = []) ∧
      updatePlace false c (at' (before ++ t0 ++ y) after) = some (v.length, (before ++ t0).length, Complete.quoteOf o) ∧
      (o = o.withoutBackslash → ∀ y', updatePlace false c (at' (before ++ t0 ++ y') after) =
        some (v.length, (before ++ t0).length, Complete.quoteOf o)) := by
  have hq := h.quoteOf
  have ho := h.origindex
  have hs := h.src
  have hd := Typed.dropBackslash h.typed
  have ht := h.typed
  cases o with
  | backslash =>
    obtain ⟨t', rfl, h'⟩ := hd.1 rfl
    refine ⟨t', ['\\'], rfl, h', by simp [Open.withoutBackslash], ?_, by simp [Open.withoutBackslash]⟩
    simp only [updatePlace, hq, ho, hs, Complete.quoteOf, at']
    rw [if_neg (by simp), if_pos ⟨by simp only [List.length_append, List.length_cons]; omega, by simp [← Nat.add_assoc, List.getElem?_append]⟩]
    simp [← Nat.add_assoc]
  | doubleBackslash =>
    obtain ⟨t', rfl, h'⟩ := hd.2 rfl
    refine ⟨t', ['\\'], rfl, h', by simp [Open.withoutBackslash], ?_, by simp [Open.withoutBackslash]⟩
    simp only [updatePlace, hq, ho, hs, Complete.quoteOf, at']
    rw [if_neg (by simp), if_pos ⟨by simp only [List.length_append, List.length_cons]; omega, by simp [← Nat.add_assoc, List.getElem?_append]⟩]
    simp [← Nat.add_assoc]
  | _ =>
    refine ⟨t, [], by simp, ht, by simp, ?_, fun _ y' => ?_⟩ <;>
      simp [updatePlace, hq, ho, hs, Complete.quoteOf]

theorem typed_close {L : Locale} {o : Open} {t v : List Char} (h : Typed L o.withoutBackslash t v) :
    Typed L .nothing (t ++ closing (quoteOf o)) v := by
  cases o with
  | nothing => simpa [closing, quoteOf, Open.withoutBackslash] using h
  | backslash => simpa [closing, quoteOf, Open.withoutBackslash] using h
  | single => exact .closeSingle _ _ h
  | double => exact .closeDouble _ _ h
  | doubleBackslash => exact .closeDouble _ _ h

theorem typed_nil {L : Locale} {o : Open} {t v : List Char} (h : Typed L o t v) : t = [] → v = [] := by
  cases h <;> simp

theorem notAssignment_append {a b : List Char} (ha : NotAssignment a)
    (hb : (∃ q ∈ a, q = '\\' ∨ q = '\'' ∨ q = '"') ∨ NotAssignment b) : NotAssignment (a ++ b) := by
  intro n r h
  rcases List.append_eq_append_iff.1 h with ⟨n', h1, h2⟩ | ⟨r', h1, h2⟩
  · rcases hb with ⟨q, hq, hq'⟩ | hb
    · exact ⟨q, by rw [h1]; exact List.mem_append_left _ hq, hq'⟩
    · obtain ⟨q, hq, hq'⟩ := hb n' r h2
      exact ⟨q, by rw [h1]; exact List.mem_append_right _ hq, hq'⟩
  · cases r' with
    | nil =>
      rcases hb with ⟨q, hq, hq'⟩ | hb
      · exact ⟨q, by simpa [h1] using hq, hq'⟩
      · obtain ⟨q, hq, _⟩ := hb [] r (by simpa using h2.symm)
        simp at hq
    | cons d r' =>
      simp at h2
      exact ha n r' (by rw [h1, ← h2.1])

theorem notAssignment_simple {a : List Char} (h : '=' ∉ a) : NotAssignment a := by
  rintro n r rfl
  simp at h

theorem quoteNormal_notAssignment (L : Locale) {c : Ctxt} (hc : c.type = .command ∧ c.ebraced = false ∧ c.vbraced = false ∧ c.quoted = false)
    (s : List Char) : NotAssignment (quoteNormal L (quotechars c) s) := by
  induction s with
  | nil => exact notAssignment_simple (by simp [quoteNormal])
  | cons d s ih =>
    refine notAssignment_append ?_ (Or.inr ih)
    split
    · exact notAssignment_simple (by decide)
    · split
      · intro n r h
        cases n with
        | nil => simp at h
        | cons x n => exact ⟨'\\', by rw [(List.cons.inj h).1]; exact List.mem_cons_self, Or.inl rfl⟩
      · rename_i hq
        refine notAssignment_simple ?_
        rintro hd
        simp only [List.mem_singleton] at hd
        subst hd
        apply hq
        simp [quotechars, hc]

theorem typed_quote {L : Locale} {o : Open} {t v : List Char} (h : Typed L o t v) :
    (o = .single → '\'' ∈ t) ∧ (o = .double ∨ o = .doubleBackslash → '"' ∈ t) := by
  induction h <;> simp_all

/-- The text of a selected candidate. -/
theorem updateText_selected {L : Locale} (hsp : BlankIsSpace L) {a : Active} {c : Cand} (hc : a.cands[a.selected]? = some c)
    {o : Open} {t0 v : List Char} (ht : Typed L o.withoutBackslash t0 v) (hv : v <+: c.value) :
    ∃ z, updateText L a v.length (quoteOf o) = some z ∧ Typed L o.withoutBackslash (t0 ++ z) c.value ∧
      ((o = .backslash → c.value ≠ []) → t0 ++ z ++ closing (quoteOf o) ≠ []) ∧
      (a.ctxt.type = .command ∧ a.ctxt.ebraced = false ∧ a.ctxt.vbraced = false ∧ a.ctxt.quoted = false →
        NotAssignment t0 → NotAssignment (t0 ++ z ++ closing (quoteOf o))) := by
  simp only [updateText, hc]
  rw [if_pos hv.length_le]
  by_cases h : c.value = [] ∧ quoteOf o = .normal
  · rw [if_pos h]
    have ho : o = .nothing := by cases o <;> simp_all [quoteOf]
    subst ho
    refine ⟨_, rfl, ?_, by simp, fun _ hn => ?_⟩
    case refine_2 =>
      simp only [closing, quoteOf, List.append_nil]
      exact notAssignment_append hn (Or.inr (notAssignment_simple (by decide)))
    rw [h.1] at hv ⊢
    have : v = [] := by simpa using hv
    subst this
    have := Typed.closeDouble _ _ (Typed.openDouble _ _ ht)
    simpa [Open.withoutBackslash] using this
  · rw [if_neg h]
    obtain ⟨w, hw⟩ := hv
    have := quote_typed hsp a.ctxt w o ht
    rw [hw] at this
    refine ⟨_, rfl, by rw [← hw, List.drop_left, hw]; exact this, ?_, ?_⟩
    case refine_2 =>
      intro hcmd hn
      have hcl : NotAssignment (closing (quoteOf o)) := by
        cases o <;> exact notAssignment_simple (by decide)
      refine notAssignment_append (notAssignment_append hn ?_) (Or.inr hcl)
      have hq := typed_quote ht
      cases o with
      | nothing => exact Or.inr (quoteNormal_notAssignment L hcmd _)
      | backslash => exact Or.inr (quoteNormal_notAssignment L hcmd _)
      | single => exact Or.inl ⟨_, hq.1 rfl, by simp⟩
      | double => exact Or.inl ⟨_, hq.2 (Or.inl rfl), by simp⟩
      | doubleBackslash => exact Or.inl ⟨_, hq.2 (Or.inl rfl), by simp⟩
    intro hne
    rw [← hw, List.drop_left]
    intro hnil
    rw [List.append_eq_nil_iff] at hnil
    have hval := typed_nil this hnil.1
    cases o with
    | nothing => exact h ⟨hval, rfl⟩
    | backslash => exact hne rfl hval
    | single => simp [closing, quoteOf] at hnil
    | double => simp [closing, quoteOf] at hnil
    | doubleBackslash => simp [closing, quoteOf] at hnil

/-- The text while no candidate is selected. -/
theorem updateText_prefix {L : Locale} (hsp : BlankIsSpace L) {a : Active} (hne : a.cands ≠ [])
    (hc : a.cands[a.selected]? = none)
    {o : Open} {t0 v : List Char} (ht : Typed L o.withoutBackslash t0 v) (hv : ∀ c ∈ a.cands, v <+: c.value) :
    ∃ z p, updateText L a v.length (quoteOf o) = some z ∧ Typed L o.withoutBackslash (t0 ++ z) p ∧
      LongestPrefix p (a.cands.map (·.value)) := by
  obtain ⟨c, cs, hcs⟩ : ∃ c cs, a.cands = c :: cs := by
    cases h : a.cands with
    | nil => exact absurd h hne
    | cons c cs => exact ⟨c, cs, rfl⟩
  obtain ⟨n, h1, h2, h3⟩ := commonPrefix_longest c cs
  simp only [updateText, hc]
  rw [hcs] at hv ⊢
  simp only [h1]
  have hvp : v <+: c.value.take n := h3.2 v (by
    intro s hs
    obtain ⟨d, hd, rfl⟩ := List.mem_map.1 hs
    exact hv d hd)
  have hle : v.length ≤ n := by
    have := hvp.length_le
    rw [List.length_take] at this
    omega
  rw [if_pos hle]
  refine ⟨_, c.value.take n, rfl, ?_, h3⟩
  obtain ⟨w, hw⟩ := hvp
  have : (c.value.drop v.length).take (n - v.length) = w := by
    rw [← List.drop_take, ← hw, List.drop_left]
  rw [this, ← hw]
  exact quote_typed hsp a.ctxt w o ht

theorem not_needSubst {c : Ctxt} {cands : List Cand} (h : ∀ d ∈ cands, c.src <+: d.value) : needSubst c cands = false := by
  unfold needSubst
  rw [List.any_eq_false]
  intro d hd
  simpa using h d hd

variable {σ : Type} {E : Env σ}

/-- The line after completing the only candidate. -/
theorem one_candidate_typed (hsp : BlankIsSpace E.locale)
    (find : Finder) (s : State) {c : Ctxt} {cand : Cand} {before t v after : List Char} {o : Open}
    (hfind : find s.buf = (c, [cand])) (hon : OnWord E.locale c s.buf before t v after o) (hsub : c.substsrc = false)
    (hpre : v <+: cand.value) (hterm : cand.terminate = true) (hempty : o = .backslash → cand.value ≠ []) :
    ∃ t', complete find (lecrNormal E.locale) s =
        some ⟨⟨before ++ t' ++ ' ' :: after, (before ++ t').length + 1⟩, none⟩ ∧ Typed E.locale .nothing t' cand.value ∧ t' ≠ [] ∧
      (c.type = .command → NotAssignment t → NotAssignment t') := by
  obtain ⟨t0, y, rfl, h0, -, hp, -⟩ := hon.place
  obtain ⟨z, hz, hty, hnn, hna⟩ := updateText_selected (a := ⟨c, [cand], 0⟩) hsp (c := cand) rfl h0 hpre
  refine ⟨t0 ++ z ++ closing (quoteOf o), ?_, typed_close hty, hnn hempty, ?_⟩
  case refine_2 =>
    intro hcmd hn
    refine hna ⟨hcmd, hon.type.2⟩ ?_
    intro n r h
    exact hn n (r ++ y) (by rw [h]; simp)
  have hup := update_eq E.locale false true ⟨c, [cand], 0⟩ (before ++ t0) y after z _ _ hp hz
  have hs : s.buf = at' (before ++ t0 ++ y) after := by rw [hon.line]; simp [at']
  simp only [complete, hfind, lecrNormal, hsub]
  rw [if_neg (by simp), if_neg (by rw [not_needSubst (by simpa [hon.src] using hpre)]; simp), if_pos (by simp), hs, hup]
  simp only [List.getElem?_cons_zero, hterm, hon.ending]
  simp [at']
  omega

/-- **C82**, one candidate.  The word becomes the candidate: the text that now stands in place of the typed word is one word for
the shell and expands to exactly the candidate.  It is followed by a blank, the cursor is behind that, and nothing else in
the line has changed.  The name of a command does not become an assignment. -/
theorem one_candidate (hL : E.locale.Ok) (hR : E.long.Ok) (hsp : BlankIsSpace E.locale)
    (find : Finder) (s : State) {c : Ctxt} {cand : Cand} {before t v after : List Char} {o : Open}
    (hfind : find s.buf = (c, [cand])) (hon : OnWord E.locale c s.buf before t v after o) (hsub : c.substsrc = false)
    (hpre : v <+: cand.value) (hterm : cand.terminate = true) (hempty : o = .backslash → cand.value ≠ []) :
    ∃ t', complete find (lecrNormal E.locale) s =
        some ⟨⟨before ++ t' ++ ' ' :: after, (before ++ t').length + 1⟩, none⟩ ∧ WordText E t' cand.value ∧
      (c.type = .command → NotAssignment t → NotAssignment t') := by
  obtain ⟨t', h1, h2, h3, h4⟩ := one_candidate_typed hsp find s hfind hon hsub hpre hterm hempty
  exact ⟨t', h1, typed_word hL hR h2 h3, h4⟩

/-- **C82**, one candidate that does not end the word, for example a directory.  The word can be gone on with: what has been typed
now stands for the candidate, and the quotation that was open still is. -/
theorem one_candidate_unfinished {L : Locale} (hsp : BlankIsSpace L)
    (find : Finder) (s : State) {c : Ctxt} {cand : Cand} {before t v after : List Char} {o : Open}
    (hfind : find s.buf = (c, [cand])) (hon : OnWord L c s.buf before t v after o) (hsub : c.substsrc = false)
    (hpre : v <+: cand.value) (hterm : cand.terminate = false) :
    ∃ t', complete find (lecrNormal L) s = some ⟨⟨before ++ t' ++ after, (before ++ t').length⟩, none⟩ ∧
      Typed L o.withoutBackslash t' cand.value := by
  obtain ⟨t0, y, rfl, h0, -, hp, -⟩ := hon.place
  obtain ⟨z, hz, hty, -, -⟩ := updateText_selected (a := ⟨c, [cand], 0⟩) hsp (c := cand) rfl h0 hpre
  refine ⟨t0 ++ z, ?_, hty⟩
  have hup := update_eq L false true ⟨c, [cand], 0⟩ (before ++ t0) y after z _ _ hp hz
  have hs : s.buf = at' (before ++ t0 ++ y) after := by rw [hon.line]; simp [at']
  simp only [complete, hfind, lecrNormal, hsub]
  rw [if_neg (by simp), if_neg (by rw [not_needSubst (by simpa [hon.src] using hpre)]; simp), if_pos (by simp), hs, hup]
  simp only [List.getElem?_cons_zero, hterm]
  simp [at']

/-- **C82**, several candidates.  What has been typed now stands for the longest common prefix of the candidates, no more and no
less; the candidates are kept for selection. -/
theorem several_candidates {L : Locale} (hsp : BlankIsSpace L)
    (find : Finder) (s : State) {c : Ctxt} {cands : List Cand} {before t v after : List Char} {o : Open}
    (hfind : find s.buf = (c, cands)) (hon : OnWord L c s.buf before t v after o) (hsub : c.substsrc = false)
    (hpre : ∀ d ∈ cands, v <+: d.value) (hmany : 2 ≤ cands.length) :
    ∃ t' p, complete find (lecrNormal L) s =
        some ⟨⟨before ++ t' ++ after, (before ++ t').length⟩, some ⟨c, cands, cands.length⟩⟩ ∧
      Typed L o.withoutBackslash t' p ∧ LongestPrefix p (cands.map (·.value)) := by
  obtain ⟨t0, y, rfl, h0, -, hp, -⟩ := hon.place
  have hne : cands ≠ [] := by rintro rfl; simp at hmany
  obtain ⟨z, p, hz, hty, hlong⟩ := updateText_prefix (a := ⟨c, cands, cands.length⟩) hsp hne (by simp) h0 hpre
  refine ⟨t0 ++ z, p, ?_, hty, hlong⟩
  have hup := update_eq L false false ⟨c, cands, cands.length⟩ (before ++ t0) y after z _ _ hp hz
  have hs : s.buf = at' (before ++ t0 ++ y) after := by rw [hon.line]; simp [at']
  simp only [complete, hfind, lecrNormal, hsub]
  rw [if_neg hne, if_neg (by rw [not_needSubst (by simpa [hon.src] using hpre)]; simp), if_neg (by omega), hs, hup]
  simp [at']

/-- **C82**, no candidates: the line does not change. -/
theorem no_candidates {L : Locale} (find : Finder) (s : State) {c : Ctxt} (hfind : find s.buf = (c, [])) :
    (∃ a, complete find (lecrNormal L) s = some ⟨s.buf, a⟩) ∧ complete find (lecrAll L) s = some ⟨s.buf, none⟩ ∧
    complete find (lecrMax L) s = some ⟨s.buf, none⟩ := by
  simp [complete, hfind, lecrNormal, lecrAll, lecrMax]

/-! ## Going through the candidates -/

/-- The index moves by the offset, around the candidates and the state without a selection. -/
theorem selectByOffset_eq (len index : Nat) (offset : Int) (h : index ≤ len) :
    (selectByOffset len index offset : Int) = ((index : Int) + offset) % ((len : Int) + 1) ∧
      selectByOffset len index offset ≤ len := by
  unfold selectByOffset
  by_cases ho : 0 ≤ offset
  · rw [if_pos ho]
    obtain ⟨k, rfl⟩ := Int.eq_ofNat_of_zero_le ho
    constructor
    · rw [Int.natCast_emod, Int.natCast_add, Int.natCast_emod]
      simp
    · have := Nat.mod_lt (index + (k : Int).toNat % (len + 1)) (show 0 < len + 1 by omega)
      omega
  · rw [if_neg ho]
    obtain ⟨k, hk⟩ := Int.eq_ofNat_of_zero_le (show 0 ≤ -offset by omega)
    obtain rfl : offset = -(k : Int) := by omega
    simp only [Int.neg_neg, Int.toNat_natCast]
    have hlt := Nat.mod_lt k (Nat.succ_pos len)
    have hdiv : ((k % (len + 1) : Nat) : Int) = k - ((len : Int) + 1) * (k / ((len : Int) + 1)) := by
      rw [Int.natCast_emod, Int.emod_def]; simp
    generalize hd : (k : Int) / ((len : Int) + 1) = d at hdiv
    by_cases hle : k % (len + 1) ≤ index
    · rw [if_pos hle]
      refine ⟨?_, by omega⟩
      have : (index : Int) + -(k : Int) = ((index - k % (len + 1) : Nat) : Int) + ((len : Int) + 1) * (-d) := by
        rw [Int.mul_neg]; omega
      rw [this, Int.add_mul_emod_self_left, Int.emod_eq_of_lt (by omega) (by omega)]
    · rw [if_neg hle]
      refine ⟨?_, by simp only [Nat.succ_eq_add_one] at hlt; omega⟩
      simp only [Nat.succ_eq_add_one] at hlt
      have : (index : Int) + -(k : Int) =
          ((index + (len - k % (len + 1) + 1) : Nat) : Int) + ((len : Int) + 1) * (-d - 1) := by
        rw [Int.mul_sub, Int.mul_neg]; omega
      rw [this, Int.add_mul_emod_self_left, Int.emod_eq_of_lt (by omega) (by omega)]

/-- A series of commands that select candidates. -/
def selectMany (L : Locale) (find : Finder) : List Int → State → Option State
  | [], s => some s
  | offset :: offsets, s =>
    match selectCandidate L find offset s with
    | none => none
    | some s => selectMany L find offsets s

/-- What stands in place of the word while the `k`th candidate is selected, or none if there are no more than `k`. -/
def Shows (L : Locale) (cands : List Cand) (o : Open) (shown : List Char) (k : Nat) : Prop :=
  match cands[k]? with
  | none => ∃ p, Typed L o shown p ∧ LongestPrefix p (cands.map (·.value))
  | some d => if d.terminate then Typed L .nothing shown d.value ∧ shown ≠ [] else Typed L o shown d.value

theorem update_shows {L : Locale} (hsp : BlankIsSpace L) {b0 : Buf} {c : Ctxt} {cands : List Cand}
    {before t v after : List Char} {o : Open} (hon : OnWord L c b0 before t v after o) (ho : o = o.withoutBackslash)
    (hpre : ∀ d ∈ cands, v <+: d.value) (hne : cands ≠ []) : ∃ shown : Nat → List Char,
      (∀ k, Shows L cands o (shown k) k) ∧ (∃ w, shown cands.length = t ++ w) ∧
      ∀ (k : Nat) (y : List Char), updateMainBuffer L false false ⟨c, cands, k⟩ (at' (before ++ t ++ y) after) =
        some (at' (before ++ shown k) after) ∧ ∃ w, shown k = t ++ w := by
  obtain ⟨t0, y, rfl, h0, hy, -, hp⟩ := hon.place
  obtain rfl := hy ho
  rw [List.append_nil]
  have key : ∀ k, ∃ x : List Char, Shows L cands o (t0 ++ x) k ∧
      ∀ y, updateMainBuffer L false false ⟨c, cands, k⟩ (at' (before ++ t0 ++ y) after) = some (at' (before ++ (t0 ++ x)) after) := by
    intro k
    cases hk : cands[k]? with
    | none =>
      obtain ⟨z, p, hz, hty, hlong⟩ := updateText_prefix (a := ⟨c, cands, k⟩) hsp hne hk h0 hpre
      refine ⟨z, ?_, ?_⟩
      · simp only [Shows, hk]
        exact ⟨p, ho ▸ hty, hlong⟩
      · intro y
        rw [update_eq L false false ⟨c, cands, k⟩ (before ++ t0) y after z _ _ (hp ho y) hz]
        simp [hk]
    | some d =>
      obtain ⟨z, hz, hty, hnn, -⟩ := updateText_selected (a := ⟨c, cands, k⟩) hsp hk h0 (hpre d (List.mem_of_getElem? hk))
      by_cases hd : d.terminate = true
      · refine ⟨z ++ closing (quoteOf o), ?_, ?_⟩
        · simp only [Shows, hk, hd, if_true]
          rw [← List.append_assoc]
          refine ⟨typed_close hty, hnn ?_⟩
          rintro rfl
          simp [Open.withoutBackslash] at ho
        · intro y
          rw [update_eq L false false ⟨c, cands, k⟩ (before ++ t0) y after z _ _ (hp ho y) hz]
          simp [hk, hd]
      · refine ⟨z, ?_, ?_⟩
        · simp only [Shows, hk]
          rw [if_neg hd]
          exact ho ▸ hty
        · intro y
          rw [update_eq L false false ⟨c, cands, k⟩ (before ++ t0) y after z _ _ (hp ho y) hz]
          simp [hk, hd]
  refine ⟨fun k => t0 ++ (key k).choose, fun k => (key k).choose_spec.1, ⟨_, rfl⟩, fun k y => ⟨?_, _, rfl⟩⟩
  exact (key k).choose_spec.2 y

/-- **C82**, going through the candidates.  Where the word does not end with a backslash, selecting candidates never fails.  The
offsets add up, around the candidates and the state without a selection.  The text in place of the word depends only on which
candidate is selected (so that coming back to a candidate restores the line), it is a word for that candidate or stands for the longest
common prefix, and nothing else in the line changes. -/
theorem going_through {L : Locale} (hsp : BlankIsSpace L)
    (find : Finder) (s : State) {c : Ctxt} {cands : List Cand} {before t v after : List Char} {o : Open}
    (hfind : find s.buf = (c, cands)) (hon : OnWord L c s.buf before t v after o) (hsub : c.substsrc = false)
    (hpre : ∀ d ∈ cands, v <+: d.value) (hmany : 2 ≤ cands.length) (ho : o ≠ .backslash ∧ o ≠ .doubleBackslash) :
    ∃ shown : Nat → List Char, (∀ k, Shows L cands o (shown k) k) ∧
      ∀ offsets : List Int, ∃ s1, complete find (lecrNormal L) s = some s1 ∧
        selectMany L find offsets s1 =
          let k := (((cands.length : Int) + offsets.sum) % ((cands.length : Int) + 1)).toNat
          some ⟨⟨before ++ shown k ++ after, (before ++ shown k).length⟩, some ⟨c, cands, k⟩⟩ := by
  have hne : cands ≠ [] := by rintro rfl; simp at hmany
  have ho' : o = o.withoutBackslash := by cases o <;> simp_all [Open.withoutBackslash]
  obtain ⟨shown, h1, ⟨w0, hw0⟩, h3⟩ := update_shows hsp hon ho' hpre hne
  refine ⟨shown, h1, ?_⟩
  have hstart : complete find (lecrNormal L) s =
      some ⟨at' (before ++ shown cands.length) after, some ⟨c, cands, cands.length⟩⟩ := by
    have hs : s.buf = at' (before ++ t ++ []) after := by rw [hon.line]; simp [at']
    simp only [complete, hfind, lecrNormal, hsub]
    rw [if_neg hne, if_neg (by rw [not_needSubst (by simpa [hon.src] using hpre)]; simp), if_neg (by omega), hs, (h3 _ _).1]
  have hmany' : ∀ (offsets : List Int) (i : Nat), i ≤ cands.length →
      selectMany L find offsets ⟨at' (before ++ shown i) after, some ⟨c, cands, i⟩⟩ =
        let k := (((i : Int) + offsets.sum) % ((cands.length : Int) + 1)).toNat
        some ⟨at' (before ++ shown k) after, some ⟨c, cands, k⟩⟩ := by
    intro offsets
    induction offsets with
    | nil =>
      intro i hi
      have : (((i : Int) + ([] : List Int).sum) % ((cands.length : Int) + 1)).toNat = i := by
        rw [List.sum_nil, Int.add_zero, Int.emod_eq_of_lt (by omega) (by omega)]
        rfl
      simp only [selectMany, this]
    | cons offset offsets ih =>
      intro i hi
      obtain ⟨w, hw⟩ := (h3 i []).2
      obtain ⟨e1, e2⟩ := selectByOffset_eq cands.length i offset hi
      have : selectCandidate L find offset ⟨at' (before ++ shown i) after, some ⟨c, cands, i⟩⟩ =
          some ⟨at' (before ++ shown (selectByOffset cands.length i offset)) after,
            some ⟨c, cands, selectByOffset cands.length i offset⟩⟩ := by
        simp only [selectCandidate, select]
        rw [if_neg hne, hw, ← List.append_assoc, (h3 _ _).1]
      simp only [selectMany, this]
      rw [ih _ e2, e1]
      simp only [List.sum_cons]
      rw [Int.emod_add_emod, Int.add_assoc]
  intro offsets
  refine ⟨_, hstart, ?_⟩
  rw [hmany' offsets _ (Nat.le_refl _)]
  simp [at']

/-! ## All candidates -/

theorem allText_words (hL : E.locale.Ok) (hR : E.long.Ok) (hsp : BlankIsSpace E.locale) (c : Ctxt) (cands : List Cand)
    (hne : ∀ d ∈ cands, d.value ≠ []) : ∃ ws : List (List Char × List Char), ws.map (·.2) = cands.map (·.value) ∧
      (∀ w ∈ ws, WordText E w.1 w.2) ∧ allText E.locale c cands = (ws.map (·.1)).flatMap (· ++ [' ']) := by
  induction cands with
  | nil => exact ⟨[], rfl, by simp, rfl⟩
  | cons d cands ih =>
    obtain ⟨ws, h1, h2, h3⟩ := ih fun x hx => hne x (List.mem_cons_of_mem _ hx)
    have ht := quoteNormal_typed hsp c d.value (Typed.start (L := E.locale))
    simp only [List.nil_append] at ht
    refine ⟨(quoteNormal E.locale (quotechars c) d.value, d.value) :: ws, by simp [h1], ?_, ?_⟩
    · intro w hw
      rcases List.mem_cons.1 hw with rfl | hw
      · exact typed_word hL hR ht fun hnil => hne d List.mem_cons_self (typed_nil ht hnil)
      · exact h2 w hw
    · simp [allText, quote, h3]

theorem substituteAll_eq (L : Locale) (c : Ctxt) (cands : List Cand) (before t after : List Char)
    (hidx : c.srcindex = before.length) :
    substituteAll L c cands ⟨before ++ t ++ after, (before ++ t).length⟩ =
      ⟨before ++ allText L c cands ++ after, (before ++ allText L c cands).length⟩ := by
  simp only [substituteAll, hidx, List.length_append, Nat.add_sub_cancel_left, replace_at]
  have := replace_at before [] after (allText L c cands)
  simp only [List.append_nil, List.length_nil] at this ⊢
  rw [this]

/-- **C82**, all candidates.  Where the word is a pattern or a candidate does not begin with what was typed, and with `complete-all`,
the word is replaced with words that expand to the candidates, one for each, in order. -/
theorem all_candidates (hL : E.locale.Ok) (hR : E.long.Ok) (hsp : BlankIsSpace E.locale)
    (find : Finder) (s : State) {c : Ctxt} {cands : List Cand} {before t after : List Char}
    (hfind : find s.buf = (c, cands)) (hline : s.buf = ⟨before ++ t ++ after, (before ++ t).length⟩)
    (hidx : c.srcindex = before.length) (hsome : cands ≠ []) (hne : ∀ d ∈ cands, d.value ≠ []) :
    ∃ ws : List (List Char × List Char), ws.map (·.2) = cands.map (·.value) ∧ (∀ w ∈ ws, WordText E w.1 w.2) ∧
      let text := (ws.map (·.1)).flatMap (· ++ [' '])
      let s' : State := ⟨⟨before ++ text ++ after, (before ++ text).length⟩, none⟩
      complete find (lecrAll E.locale) s = some s' ∧
      (c.substsrc = true ∨ (∃ d ∈ cands, ¬ c.src <+: d.value) → complete find (lecrNormal E.locale) s = some s') := by
  obtain ⟨ws, h1, h2, h3⟩ := allText_words hL hR hsp c cands hne
  refine ⟨ws, h1, h2, ?_⟩
  have heq := substituteAll_eq E.locale c cands before t after hidx
  rw [← hline, h3] at heq
  constructor
  · simp only [complete, hfind, lecrAll]
    rw [if_neg hsome, heq]
  · intro h
    simp only [complete, hfind, lecrNormal]
    have : (c.substsrc || needSubst c cands) = true := by
      rcases h with h | ⟨d, hd, hn⟩
      · simp [h]
      · simp only [needSubst, Bool.or_eq_true, List.any_eq_true]
        exact Or.inr ⟨d, hd, by rw [Bool.not_eq_true', ← Bool.not_eq_true, List.isPrefixOf_iff_prefix]; exact hn⟩
    rw [if_neg hsome, if_pos this, heq]

/-! ## The other commands -/

/-- **C82**, `complete-max`: what is typed now stands for the longest common prefix, also where the word is a pattern or does not
begin with what was typed. -/
theorem max_prefix {L : Locale} (hsp : BlankIsSpace L)
    (find : Finder) (s : State) {c : Ctxt} {cands : List Cand} {before t v after : List Char} {o : Open}
    (hfind : find s.buf = (c, cands)) (hmany : 2 ≤ cands.length) :
    (OnWord L c s.buf before t v after o → c.substsrc = false → (∀ d ∈ cands, v <+: d.value) →
      ∃ t' p, complete find (lecrMax L) s = some ⟨⟨before ++ t' ++ after, (before ++ t').length⟩, none⟩ ∧
        Typed L o.withoutBackslash t' p ∧ LongestPrefix p (cands.map (·.value))) ∧
    (s.buf = ⟨before ++ t ++ after, (before ++ t).length⟩ → c.srcindex = before.length →
      (c.substsrc = true ∨ ∃ d ∈ cands, ¬ c.src <+: d.value) →
      ∃ t' p, complete find (lecrMax L) s = some ⟨⟨before ++ t' ++ after, (before ++ t').length⟩, none⟩ ∧
        Typed L .nothing t' p ∧ LongestPrefix p (cands.map (·.value))) := by
  have hne : cands ≠ [] := by rintro rfl; simp at hmany
  constructor
  · intro hon hsub hpre
    obtain ⟨t0, y, rfl, h0, -, hp, -⟩ := hon.place
    obtain ⟨z, p, hz, hty, hlong⟩ := updateText_prefix (a := ⟨c, cands, cands.length⟩) hsp hne (by simp) h0 hpre
    refine ⟨t0 ++ z, p, ?_, hty, hlong⟩
    have hup := update_eq L false false ⟨c, cands, cands.length⟩ (before ++ t0) y after z _ _ hp hz
    have hs : s.buf = at' (before ++ t0 ++ y) after := by rw [hon.line]; simp [at']
    simp only [complete, hfind, lecrMax, hsub, not_needSubst (c := c) (cands := cands) (by simpa [hon.src] using hpre)]
    rw [if_neg hne, if_pos (by omega), hs, Bool.or_false, hup]
    simp [at']
  · intro hline hidx h
    have hsub : (c.substsrc || needSubst c cands) = true := by
      rcases h with h | ⟨d, hd, hn⟩
      · simp [h]
      · simp only [needSubst, Bool.or_eq_true, List.any_eq_true]
        exact Or.inr ⟨d, hd, by rw [Bool.not_eq_true', ← Bool.not_eq_true, List.isPrefixOf_iff_prefix]; exact hn⟩
    obtain ⟨z, p, hz, hty, hlong⟩ := updateText_prefix (a := ⟨c, cands, cands.length⟩) (o := .nothing) hsp hne (by simp)
      (Typed.start (L := L)) (by simp)
    refine ⟨z, p, ?_, hty, hlong⟩
    have hup := update_eq L true false ⟨c, cands, cands.length⟩ before t after z 0 .normal
      (by simp [updatePlace, hidx]) hz
    have hs : s.buf = at' (before ++ t) after := by rw [hline]; simp [at']
    simp only [complete, hfind, lecrMax, hsub]
    rw [if_neg hne, if_pos (by omega), hs, hup]
    simp [at']

/-- **C82**, `complete-list` with a count: the candidate of that number is inserted, whether or not it begins with what was typed. -/
theorem numbered_candidate (hL : E.locale.Ok) (hR : E.long.Ok) (hsp : BlankIsSpace E.locale)
    (find : Finder) (s : State) {c : Ctxt} {cands : List Cand} {cand : Cand} {before t v after : List Char} {o : Open}
    (hact : s.active = none)
    (hfind : find s.buf = (c, cands)) (hon : OnWord E.locale c s.buf before t v after o) (i : Nat)
    (hi : cands[i]? = some cand) (hterm : cand.terminate = true) (hempty : o = .backslash → cand.value ≠ []) :
    ∃ t', fixCandidate E.locale find (i + 1) s =
        some ⟨⟨before ++ t' ++ ' ' :: after, (before ++ t').length + 1⟩, none⟩ ∧ WordText E t' cand.value := by
  by_cases hsub : (c.substsrc || !c.src.isPrefixOf cand.value) = true
  · obtain ⟨z, hz, hty, hnn, -⟩ := updateText_selected (a := ⟨c, cands, i⟩) (o := .nothing) hsp hi
      (Typed.start (L := E.locale)) (by simp)
    simp only [List.nil_append, closing, quoteOf, List.append_nil] at hty hnn
    refine ⟨z, ?_, typed_word hL hR hty (hnn (by simp))⟩
    have hup := update_eq E.locale true true ⟨c, cands, i⟩ before t after z 0 .normal
      (by simp [updatePlace, hon.srcindex]) hz
    have hs : s.buf = at' (before ++ t) after := by rw [hon.line]; simp [at']
    simp only [fixCandidate, hact, hfind, hi, hsub]
    rw [hs, hup]
    simp only [hi, hterm, hon.ending]
    simp [at', closing]
    omega
  · rw [Bool.not_eq_true] at hsub
    have hpre : v <+: cand.value := by
      simp only [Bool.or_eq_false_iff, Bool.not_eq_false', hon.src] at hsub
      simpa using hsub.2
    obtain ⟨t0, y, rfl, h0, -, hp, -⟩ := hon.place
    obtain ⟨z, hz, hty, hnn, -⟩ := updateText_selected (a := ⟨c, cands, i⟩) hsp hi h0 hpre
    refine ⟨t0 ++ z ++ closing (quoteOf o), ?_, typed_word hL hR (typed_close hty) (hnn hempty)⟩
    have hup := update_eq E.locale false true ⟨c, cands, i⟩ (before ++ t0) y after z _ _ hp hz
    have hs : s.buf = at' (before ++ t0 ++ y) after := by rw [hon.line]; simp [at']
    simp only [fixCandidate, hact, hfind, hi, hsub]
    rw [hs, hup]
    simp only [hi, hterm, hon.ending]
    simp [at']
    omega

end Yash.Complete
