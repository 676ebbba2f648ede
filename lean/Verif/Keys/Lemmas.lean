import Verif.Keys.Spec
import Verif.Trie.Props
/-!
# Lemmas on reading keys
-/
set_option autoImplicit false

namespace Yash.Keys

open Spec
open Yash.Input (Byte Decoder mbrtowc)
open Yash.Input.Spec (OneChar)

variable {T S Cmd : Type} {E : Terminal T S Cmd} {code : List Byte → Option (List Char)} {bound : S → List Char → Option Cmd}

theorem ltByte_ok : Trie.LtOk ltByte where
  irrefl a := by simp [ltByte]
  trans a b c h1 h2 := by simp [ltByte] at *; omega
  total a b h := by
    simp only [ltByte, decide_eq_true_eq]
    have : a.toNat ≠ b.toNat := fun h' => h (UInt8.toNat_inj.1 h')
    omega

theorem ltChar_ok : Trie.LtOk ltChar where
  irrefl a := by simp [ltChar]
  trans a b c h1 h2 := by simp [ltChar] at *; omega
  total a b h := by
    simp only [ltChar, decide_eq_true_eq]
    have : a.toNat ≠ b.toNat := fun h' => h (Char.toNat_inj.1 h')
    omega

/-- What a lookup says. -/
structure Found {K V : Type} (m : List K → Option V) (w : List K) (r : Trie.Get V) : Prop where
  nothing : r.exact = none → ∀ x, x <+: w → m x = none
  longest : ∀ v, r.exact = some v → r.matchlength ≤ w.length ∧ m (w.take r.matchlength) = some v ∧
    ∀ x, x ≠ [] → x <+: w.drop r.matchlength → m (w.take r.matchlength ++ x) = none
  more : r.prefixMatch = true ↔ ∃ k, k ≠ [] ∧ (m (w ++ k)).isSome

theorem found_of {K V : Type} [DecidableEq K] {lt : K → K → Bool} (hlt : Trie.LtOk lt) (nul : K) (ops : List (Trie.Op K V)) {t : Trie.Node K V}
    (ht : Trie.run lt nul ops = some t) {m : List K → Option V} (hm : ∀ k, m k = Trie.specMap nul ops k) (w : List K) :
    ∃ r, Trie.get lt t w = some r ∧ Found m w r := by
  obtain ⟨t', r, h1, h2, h3, h4⟩ := Trie.C06_lookup hlt nul ops w
  rw [ht] at h1
  cases h1
  refine ⟨r, h2, ?_, ?_, by simpa [hm] using h4⟩
  · intro hn x hx
    simp only [hn] at h3
    have := h3 x.length hx.length_le
    rw [← List.prefix_iff_eq_take.1 hx] at this
    rw [hm, this]
  · intro v hv
    simp only [hv] at h3
    obtain ⟨a1, a2, a3⟩ := h3
    refine ⟨a1, by rw [hm, a2], fun x hne hx => ?_⟩
    have hlen := hx.length_le
    rw [List.length_drop] at hlen
    have hpos := List.length_pos_iff.2 hne
    have := a3 (r.matchlength + x.length) (by omega) (by omega)
    rw [hm, ← this]
    congr 1
    rw [List.take_add, ← List.prefix_iff_eq_take.1 hx]

theorem Spec.Maps.found (h : Maps E code bound) (s : S) (w : List Char) : ∃ r, Trie.get ltChar (E.keymap s) w = some r ∧ Found (bound s) w r := by
  obtain ⟨ops, h1, h2⟩ := h.keymap s
  exact found_of ltChar_ok _ ops h1 h2 w

theorem Spec.Maps.foundCode (h : Maps E code bound) (w : List Byte) : ∃ r, Trie.get ltByte E.codes w = some r ∧ Found code w r := by
  obtain ⟨ops, h1, h2⟩ := h.codes
  exact found_of ltByte_ok _ ops h1 h2 w

/-! ## Commands -/

theorem Spec.Acts.append {s s' : S} {t r : List Char} (h : Acts E bound s t s' r) (u : List Char) : Acts E bound s (t ++ u) s' (r ++ u) := by
  induction h with
  | stop s t => exact .stop _ _
  | key s k cmd c arrived text s' rest h1 h2 h3 h4 h5 _ ih =>
    rw [List.append_assoc]
    exact .key s k cmd c arrived (text ++ u) s' _ h1 h2 (h3.trans (List.prefix_append _ _)) h4 h5 ih
  | char s c text s' rest h1 _ ih => exact .char s c (text ++ u) s' _ h1 ih
  | unbound s w text s' rest h1 h2 h3 _ ih =>
    rw [List.append_assoc]
    exact .unbound s w (text ++ u) s' _ h1 h2 h3 ih

theorem Spec.Acts.trans {s s1 s2 : S} {t r1 r2 : List Char} (h : Acts E bound s t s1 r1) (h2 : Acts E bound s1 r1 s2 r2) : Acts E bound s t s2 r2 := by
  induction h with
  | stop s t => exact h2
  | key s k cmd c arrived text s' rest a1 a2 a3 a4 a5 _ ih => exact .key s k cmd c arrived text _ _ a1 a2 a3 a4 a5 (ih h2)
  | char s c text s' rest a1 _ ih => exact .char s c text _ _ a1 (ih h2)
  | unbound s w text s' rest a1 a2 a3 _ ih => exact .unbound s w text _ _ a1 a2 a3 (ih h2)

theorem keymapLoop_acts (h : Maps E code bound) : ∀ (n : Nat) (second : List Char) (ed : S), second.length < n →
    ∃ second' ed', keymapLoop E n second ed = some (second', ed') ∧ Acts E bound ed second ed' second' := by
  intro n
  induction n with
  | zero => intro _ _ h; omega
  | succ n ih =>
    intro second ed hn
    cases second with
    | nil => exact ⟨[], ed, rfl, .stop _ _⟩
    | cons x xs =>
      obtain ⟨tg, hg, hf⟩ := h.found ed (x :: xs)
      rw [keymapLoop, hg]
      cases hp : tg.prefixMatch with
      | true => cases he : tg.exact <;> simp only [he, hp] <;> exact ⟨_, _, rfl, .stop _ _⟩
      | false =>
        have hno : ∀ k, k ≠ [] → bound ed (x :: xs ++ k) = none := by
          intro k hk
          cases hb : bound ed (x :: xs ++ k) with
          | none => rfl
          | some v =>
            have := hf.more.2 ⟨k, hk, by rw [hb]; rfl⟩
            rw [hp] at this
            cases this
        cases he : tg.exact with
        | none =>
          have hpre := hf.nothing he
          have hno' : ∀ k, bound ed (x :: xs ++ k) = none := by
            intro k
            cases k with
            | nil => exact hpre _ (by simp)
            | cons a k => exact hno _ (by simp)
          have hact : ∀ c, c = (if (x :: xs).length > 1 then '\x00' else x) → Acts E bound ed (x :: xs) (E.invoke (E.default ed) c ed) [] := by
            intro c hc
            cases xs with
            | nil =>
              simp at hc
              subst hc
              exact .char ed c [] _ _ (fun k => hno' k) (.stop _ _)
            | cons y ys =>
              simp at hc
              subst hc
              have := Acts.unbound (E := E) (bound := bound) ed (x :: y :: ys) [] _ [] (by simp) hpre hno' (.stop _ _)
              rwa [List.append_nil] at this
          simp only [he, hp]
          generalize hcc : (if (x :: xs).length > 1 then '\x00' else x) = c
          have := hact c hcc.symm
          split
          · exact ⟨_, _, rfl, this⟩
          · obtain ⟨m, rfl⟩ : ∃ m, n = m + 1 := ⟨n - 1, by simp at hn; omega⟩
            exact ⟨_, _, rfl, this⟩
        | some cmd =>
          obtain ⟨b1, b2, b3⟩ := hf.longest cmd he
          have hpos : tg.matchlength ≠ 0 := by
            intro h0
            rw [h0, List.take_zero, h.noEmptyKey] at b2
            cases b2
          simp only [he, hp]
          rw [if_neg hpos]
          have hlt : tg.matchlength - 1 < (x :: xs).length := by omega
          rw [List.getElem?_eq_getElem hlt]
          simp only []
          generalize hc : (x :: xs)[tg.matchlength - 1] = c
          have hlast : ((x :: xs).take tg.matchlength).getLast? = some c := by
            rw [List.getLast?_eq_getElem?, List.length_take, Nat.min_eq_left b1, List.getElem?_take, if_pos (by omega), List.getElem?_eq_getElem hlt, hc]
          have hact : Acts E bound ed (x :: xs) (E.invoke cmd c ed) ((x :: xs).drop tg.matchlength) := by
            have := Acts.key (E := E) (bound := bound) ed ((x :: xs).take tg.matchlength) cmd c ((x :: xs).drop tg.matchlength) ((x :: xs).drop tg.matchlength) _ _
              b2 hlast (List.prefix_refl _) b3 (by rw [List.take_append_drop]; exact hno) (.stop _ _)
            rwa [List.take_append_drop] at this
          split
          · exact ⟨_, _, rfl, hact⟩
          · obtain ⟨s', e', g1, g2⟩ := ih ((x :: xs).drop tg.matchlength) (E.invoke cmd c ed) (by rw [List.length_drop]; omega)
            exact ⟨s', e', g1, hact.trans g2⟩

theorem processKeymap_acts (h : Maps E code bound) (r : Reader T S) :
    ∃ second ed, processKeymap E r = some { r with second := second, ed := ed } ∧ Acts E bound r.ed r.second ed second := by
  obtain ⟨second, ed, h1, h2⟩ := keymapLoop_acts h _ r.second r.ed (Nat.lt_succ_self _)
  exact ⟨second, ed, by rw [processKeymap, h1]; rfl, h2⟩

/-! ## Key codes -/

variable {late : Bool}

theorem Spec.Sorts.append {s s' : T} {b r : List Byte} {t : List Char} (h : Sorts E code late s b t s' r) (u : List Byte) :
    Sorts E code late s (b ++ u) t s' (r ++ u) := by
  induction h with
  | nil s b => exact .nil _ _
  | special s b key bytes text s' rest a1 _ ih => exact .special s b key _ text s' _ a1 ih
  | code s k key arrived bytes text s' rest a1 a2 a3 a4 a5 _ ih =>
    rw [List.append_assoc]
    exact .code s k key arrived _ text s' _ a1 a2 (a3.trans (List.prefix_append _ _)) a4 a5 ih
  | char s bs c s1 bytes text s' rest a1 a2 _ ih =>
    rw [List.append_assoc]
    exact .char s bs c s1 _ text s' _ a1 a2 ih
  | nul s bs lost s1 bytes text s' rest a1 _ ih =>
    rw [List.append_assoc]
    exact .nul s bs lost s1 _ text s' _ a1 ih
  | bad s bs s1 b s2 lost bytes text s' rest a1 a2 _ ih =>
    rw [List.append_assoc]
    exact .bad s bs s1 b s2 lost _ text s' _ a1 a2 ih

theorem Spec.Sorts.trans {s s1 s2 : T} {b r1 r2 : List Byte} {t1 t2 : List Char} (h : Sorts E code late s b t1 s1 r1)
    (h2 : Sorts E code late s1 r1 t2 s2 r2) : Sorts E code late s b (t1 ++ t2) s2 r2 := by
  induction h with
  | nil s b => exact h2
  | special s b key bytes text s' rest a1 _ ih =>
    rw [List.append_assoc]
    exact .special s b key _ _ _ _ a1 (ih h2)
  | code s k key arrived bytes text s' rest a1 a2 a3 a4 a5 _ ih =>
    rw [List.append_assoc]
    exact .code s k key arrived _ _ _ _ a1 a2 a3 a4 a5 (ih h2)
  | char s bs c s1 bytes text s' rest a1 a2 _ ih =>
    rw [List.append_assoc]
    exact .char s bs c s1 _ _ _ _ a1 a2 (ih h2)
  | nul s bs lost s1 bytes text s' rest a1 _ ih => exact .nul s bs lost s1 _ _ _ _ a1 (ih h2)
  | bad s bs s1 b s2 lost bytes text s' rest a1 a2 _ ih => exact .bad s bs s1 b s2 lost _ _ _ _ a1 a2 (ih h2)

theorem Spec.Sorts.toLate {s s' : T} {b r : List Byte} {t : List Char} (h : Sorts E code false s b t s' r) :
    Sorts E code late s b t s' r := by
  induction h with
  | nil s b => exact .nil _ _
  | special s b key bytes text s' rest a1 _ ih => exact .special s b key _ text s' _ a1 ih
  | code s k key arrived bytes text s' rest a1 a2 a3 a4 a5 _ ih => exact .code s k key arrived _ text s' _ a1 a2 a3 a4 (fun _ => a5 rfl) ih
  | char s bs c s1 bytes text s' rest a1 a2 _ ih => exact .char s bs c s1 _ text s' _ a1 a2 ih
  | nul s bs lost s1 bytes text s' rest a1 _ ih => exact .nul s bs lost s1 _ text s' _ a1 ih
  | bad s bs s1 b s2 lost bytes text s' rest a1 a2 _ ih => exact .bad s bs s1 b s2 lost _ text s' _ a1 a2 ih

theorem special_some {b : Byte} {key : List Char} (h : special E b = some key) : SpecialKey E b key := by
  unfold special at h
  simp only [SpecialKey, specialKeys, List.find?]
  split at h
  · rename_i h1; rw [← h1]; simpa using h
  · rename_i h1
    rw [show (E.interrupt == some b) = false from by simpa using fun h' => h1 h'.symm]
    split at h
    · rename_i h2; rw [← h2]; simpa using h
    · rename_i h2
      rw [show (E.eof == some b) = false from by simpa using fun h' => h2 h'.symm]
      split at h
      · rename_i h3; rw [← h3]; simpa using h
      · rename_i h3
        rw [show (E.kill == some b) = false from by simpa using fun h' => h3 h'.symm]
        split at h
        · rename_i h4; rw [← h4]; simpa using h
        · cases h

theorem special_none {b : Byte} : special E b = none ↔ NotSpecial E b := by
  unfold special NotSpecial
  simp only [specialKeys, List.mem_cons, List.not_mem_nil, or_false, forall_eq_or_imp, forall_eq]
  constructor
  · intro h
    repeat' split at h
    all_goals first
      | (rename_i h1 h2 h3 h4; exact ⟨fun h' => h1 h'.symm, fun h' => h2 h'.symm, fun h' => h3 h'.symm, fun h' => h4 h'.symm⟩)
      | exact absurd h (by simp)
  · rintro ⟨h1, h2, h3, h4⟩
    rw [if_neg fun h => h1 h.symm, if_neg fun h => h2 h.symm, if_neg fun h => h3 h.symm, if_neg fun h => h4 h.symm]

theorem codeLoop_sorts (h : Maps E code bound) (timeout : Bool) : ∀ (n : Nat) (first : List Byte) (second : List Char), first.length < n →
    ∃ next amb first' extra, codeLoop E timeout n first second = some (next, amb, first', second ++ extra) ∧
      ∀ st, Sorts E code timeout st first extra st first' := by
  intro n
  induction n with
  | zero => intro _ _ h; omega
  | succ n ih =>
    intro first second hn
    rw [codeLoop]
    cases first with
    | nil => exact ⟨.wide, false, [], [], by simp, fun st => .nil _ _⟩
    | cons b bs =>
      rw [if_neg (by simp)]
      cases hs : special E b with
      | some key =>
        simp only [lookup, hs, List.drop_succ_cons, List.drop_zero]
        obtain ⟨next, amb, first', extra, h1, h2⟩ := ih bs (second ++ key) (by simp at hn; omega)
        exact ⟨next, amb, first', key ++ extra, by rw [h1, List.append_assoc], fun st => .special st b key bs extra st first' (special_some hs) (h2 st)⟩
      | none =>
        obtain ⟨tg, hg, hf⟩ := h.foundCode (b :: bs)
        simp only [lookup, hs, hg]
        have hsome : ∀ key, tg.exact = some key → (tg.prefixMatch = true → timeout = true) →
            ∃ next amb first' extra, codeLoop E timeout n ((b :: bs).drop tg.matchlength) (second ++ key) = some (next, amb, first', second ++ extra) ∧
              ∀ st, Sorts E code timeout st (b :: bs) extra st first' := by
          intro key he hpm
          obtain ⟨b1, b2, b3⟩ := hf.longest key he
          have hpos : tg.matchlength ≠ 0 := by
            intro h0
            rw [h0, List.take_zero, h.noEmptyCode] at b2
            cases b2
          obtain ⟨next, amb, first', extra, h1, h2⟩ := ih ((b :: bs).drop tg.matchlength) (second ++ key) (by rw [List.length_drop]; simp at hn ⊢; omega)
          refine ⟨next, amb, first', key ++ extra, by rw [h1, List.append_assoc], fun st => ?_⟩
          have := Sorts.code (E := E) (code := code) (late := timeout) st ((b :: bs).take tg.matchlength) key ((b :: bs).drop tg.matchlength)
            ((b :: bs).drop tg.matchlength) extra st first' (by
              obtain ⟨m, hm⟩ : ∃ m, tg.matchlength = m + 1 := ⟨tg.matchlength - 1, by omega⟩
              rw [hm]
              simpa using special_none.1 hs) b2 (List.prefix_refl _) b3 (by
              intro hl x hx
              rw [List.take_append_drop]
              cases hc : code (b :: bs ++ x) with
              | none => rfl
              | some v =>
                have := hpm (hf.more.2 ⟨x, hx, by rw [hc]; rfl⟩)
                rw [hl] at this
                cases this) (h2 st)
          rwa [List.take_append_drop] at this
        cases he : tg.exact with
        | none =>
          cases hp : tg.prefixMatch with
          | true => exact ⟨.keymap, false, b :: bs, [], by simp [he, hp], fun st => .nil _ _⟩
          | false => exact ⟨.wide, false, b :: bs, [], by simp [he, hp], fun st => .nil _ _⟩
        | some key =>
          cases hp : tg.prefixMatch with
          | false => simpa only [he, hp] using hsome key he (by simp [hp])
          | true =>
            cases ht : timeout with
            | true =>
              rw [ht] at hsome
              simpa only [he, hp, if_true] using hsome key he (by simp)
            | false => exact ⟨.keymap, true, b :: bs, [], by simp [he, hp], fun st => .nil _ _⟩

/-! ## Characters -/

theorem Spec.Begins.char {D : Decoder T} {s s1 s' : T} {bs cs : List Byte} {c : Char} (h : Begins D s bs s1) (h2 : OneChar D s1 cs c s') :
    OneChar D s (bs ++ cs) c s' := by
  induction h with
  | nil s => exact h2
  | more s b s1 bs s' h1 _ ih => exact .more _ _ _ _ _ _ h1 (ih h2)

theorem Spec.Begins.trans {D : Decoder T} {s s1 s' : T} {bs cs : List Byte} (h : Begins D s bs s1) (h2 : Begins D s1 cs s') :
    Begins D s (bs ++ cs) s' := by
  induction h with
  | nil s => exact h2
  | more s b s1 bs s' h1 _ ih => exact .more _ _ _ _ _ h1 (ih h2)

/-- What `mbrtowc` says. -/
def ConvSays (D : Decoder T) (s : T) (bs : List Byte) : Input.Conv T → Prop
  | .char c n s' => n < bs.length ∧ c ≠ '\x00' ∧ OneChar D s (bs.take (n + 1)) c s'
  | .nul s' => ∃ pre lost, bs = pre ++ lost ∧ OneChar D s pre '\x00' s'
  | .invalid _ => ∃ pre b lost s1 s2, bs = pre ++ b :: lost ∧ Begins D s pre s1 ∧ D.step s1 b = .bad s2
  | .incomplete s' => Begins D s bs s'

theorem mbrtowc_says (D : Decoder T) (bs : List Byte) : ∀ s, ConvSays D s bs (mbrtowc D s bs) := by
  induction bs with
  | nil => intro s; exact .nil s
  | cons b bs ih =>
    intro s
    rw [mbrtowc]
    cases hd : D.step s b with
    | char c s' =>
      simp only []
      split
      · rename_i h; subst h; exact ⟨[b], bs, rfl, .last _ _ _ _ hd⟩
      · rename_i h; exact ⟨by simp, h, .last _ _ _ _ hd⟩
    | bad s' => exact ⟨[], b, bs, s, s', rfl, .nil s, hd⟩
    | more s1 =>
      simp only []
      have := ih s1
      cases hm : mbrtowc D s1 bs with
      | char c n s' =>
        rw [hm] at this
        exact ⟨by simpa using this.1, this.2.1, .more _ _ _ _ _ _ hd this.2.2⟩
      | nul s' =>
        rw [hm] at this
        obtain ⟨pre, lost, h1, h2⟩ := this
        exact ⟨b :: pre, lost, by rw [h1]; rfl, .more _ _ _ _ _ _ hd h2⟩
      | invalid s' =>
        rw [hm] at this
        obtain ⟨pre, x, lost, s1, s2, h1, h2, h3⟩ := this
        exact ⟨b :: pre, x, lost, s1, s2, by rw [h1]; rfl, .more _ _ _ _ _ hd h2, h3⟩
      | incomplete s' =>
        rw [hm] at this
        exact .more _ _ _ _ _ hd this

/-- Characters are not read verbatim. -/
def NoVerbatim (E : Terminal T S Cmd) : Prop := ∀ s, E.verbatim s = false ∧ E.unverbatim s = s

theorem append_key (hv : NoVerbatim E) {c : Char} (hc : c ≠ '\x00') (second : List Char) (ed : S) : append E c second ed = (second ++ keyOf c, ed) := by
  unfold append keyOf
  rw [if_neg (by simp [(hv ed).1]), if_neg hc]
  split <;> rfl

theorem append_nul (hv : NoVerbatim E) (second : List Char) (ed : S) : append E '\x00' second ed = (second, ed) := by
  unfold append
  rw [if_neg (by simp [(hv ed).1]), if_pos rfl]

theorem wideLoop_sorts (hv : NoVerbatim E) : ∀ (n : Nat) (r : Reader T S) (st : T) (part : List Byte), r.first.length < n →
    Begins E.decoder st part r.state → (r.incomplete = false → part = []) →
    ∃ state inc st' part' extra, wideLoop E n r = some ⟨[], state, r.second ++ extra, inc, r.ambiguous, r.ed⟩ ∧
      Sorts E code late st (part ++ r.first) extra st' part' ∧ Begins E.decoder st' part' state ∧ (inc = false → part' = []) := by
  intro n
  induction n with
  | zero => intro _ _ _ h; omega
  | succ n ih =>
    intro r st part hn hb hi
    obtain ⟨first, state, second, inc, amb, ed⟩ := r
    cases first with
    | nil =>
      refine ⟨state, inc, st, part, [], ?_, ?_, hb, hi⟩
      · simp [wideLoop]
      · rw [List.append_nil]; exact .nil _ _
    | cons b bs =>
      rw [wideLoop, if_neg (by simp)]
      have hs := mbrtowc_says E.decoder (b :: bs) state
      simp only [] at hb hn ⊢
      cases hm : mbrtowc E.decoder state (b :: bs) with
      | nul s =>
        rw [hm] at hs
        obtain ⟨pre, lost, h1, h2⟩ := hs
        simp only [append_nul hv]
        obtain ⟨m, rfl⟩ : ∃ m, n = m + 1 := ⟨n - 1, by simp at hn; omega⟩
        refine ⟨s, false, s, [], [], by simp [wideLoop], ?_, .nil _, fun _ => rfl⟩
        rw [h1]
        have := Sorts.nul (E := E) (code := code) (late := late) st (part ++ pre) lost s [] [] s [] (hb.char h2) (.nil _ _)
        simpa using this
      | invalid s =>
        rw [hm] at hs
        obtain ⟨pre, x, lost, s1, s2, h1, h2, h3⟩ := hs
        refine ⟨E.initial, false, E.initial, [], [], by simp [(hv ed).2], ?_, .nil _, fun _ => rfl⟩
        rw [h1]
        have := Sorts.bad (E := E) (code := code) (late := late) st (part ++ pre) s1 x s2 lost [] [] E.initial [] (hb.trans h2) h3 (.nil _ _)
        simpa using this
      | incomplete s =>
        rw [hm] at hs
        exact ⟨s, true, st, part ++ b :: bs, [], by simp, .nil _ _, hb.trans hs, by simp⟩
      | char c k s =>
        rw [hm] at hs
        obtain ⟨h1, h2, h3⟩ := hs
        simp only [append_key hv h2]
        obtain ⟨state', inc', st', part', extra, g1, g2, g3, g4⟩ := ih ⟨(b :: bs).drop (k + 1), s, second ++ keyOf c, false, amb, ed⟩ s [] (by
          simp only [List.length_drop]; simp only [List.length_cons] at hn ⊢; omega) (.nil _) (fun _ => rfl)
        refine ⟨state', inc', st', part', keyOf c ++ extra, by rw [g1]; simp, ?_, g3, g4⟩
        have := Sorts.char (E := E) (code := code) (late := late) st (part ++ (b :: bs).take (k + 1)) c s _ extra st' part' (hb.char h3) h2 g2
        rwa [List.nil_append, List.append_assoc, List.take_append_drop] at this

end Yash.Keys
