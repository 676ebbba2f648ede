import Verif.Edit.Goes
/-! # What operators do -/
set_option autoImplicit false

namespace Yash.Edit
open Spec

/-- The end of the part an operator is applied to. -/
def regionEnd (inc : Bool) (s : List Char) (i r : Nat) : Nat := if inc = true ∧ max i r < s.length then max i r + 1 else max i r

theorem execMotion_split {E : Env} {st s1 : St} {r : Nat} {inc : Bool} (h : Inv E st) (hr : r ≤ st.buf.length) (he : execMotion E r inc st = some s1) :
    ∃ s0, Inv E s0 ∧ OnlyUndo s0 st ∧ applyMec E st.idx r (min st.idx r) (regionEnd inc st.buf st.idx r) s0 = some s1 := by
  have hi := h.idx
  have hs : (if st.idx ≤ r then st.idx else r) = min st.idx r := by split <;> omega
  have hf : (if (inc && decide ((if st.idx ≤ r then r else st.idx) < st.buf.length)) = true then (if st.idx ≤ r then r else st.idx) + 1 else (if st.idx ≤ r then r else st.idx)) =
      regionEnd inc st.buf st.idx r := by
    rw [show (if st.idx ≤ r then r else st.idx) = max st.idx r by split <;> omega, regionEnd]
    simp only [Bool.and_eq_true, decide_eq_true_eq]
  rw [execMotion, if_neg (by omega)] at he
  dsimp only at he
  rw [hs, hf] at he
  split at he
  · exact ⟨st, h, by constructor <;> rfl, he⟩
  · obtain ⟨s0, e0, i0, o0, -⟩ := maybeSave_ok h
    rw [e0] at he
    exact ⟨s0, i0, o0, he⟩

/-- A motion without an operator. -/
theorem execMotion_move {E : Env} {st s1 : St} {r : Nat} {inc : Bool} (h : Inv E st) (hr : r ≤ st.buf.length) (hm : st.arg.motion = .move)
    (he : execMotion E r inc st = some s1) : s1.buf = st.buf ∧ s1.idx = r ∧ s1.mainLen = st.mainLen ∧ s1.mode = st.mode := by
  obtain ⟨s0, i0, o0, ha⟩ := execMotion_split h hr he
  have hm0 : s0.arg.motion = .move := by rw [o0.arg, hm]
  rw [applyMec, hm0] at ha
  simp [Mec.move] at ha
  subst ha
  exact ⟨o0.buf, rfl, o0.mainLen, o0.mode⟩

theorem active_congr {a b : St} (h1 : a.buf = b.buf) (h2 : a.idx = b.idx) (h3 : a.mainLen = b.mainLen) : activeLength a = activeLength b := by
  rw [activeLength, activeLength, h1, h2, h3]

theorem addToRing_last {s : List Char} {st : St} (hl : st.ring.length = 32) (hn : st.nextKill < 32) (hs : s ≠ []) : lastKilled (addToRing s st) = some s := by
  cases s with
  | nil => exact absurd rfl hs
  | cons c s =>
    simp only [addToRing, lastKilled]
    rw [show ((st.nextKill + 1) % 32 + 31) % 32 = st.nextKill by omega, List.getElem?_set_self (by omega)]
    rfl

/-- An operator that deletes. -/
theorem execMotion_delete {E : Env} {st s1 : St} {r : Nat} {inc : Bool} (h : Inv E st) (hmn : Main st) (hr : r ≤ st.buf.length) (hd : st.arg.motion.delete = true)
    (hu : st.arg.motion.upper = false) (hl : st.arg.motion.lower = false) (ho : st.overwrite = none)
    (he : execMotion E r inc st = some s1) :
    s1.buf = removeAt (st.buf.take (activeLength st)) (min st.idx r) (regionEnd inc st.buf st.idx r - min st.idx r) ∧ s1.idx = min st.idx r ∧
      s1.mainLen = none ∧ s1.arg = {} ∧ (st.arg.motion.insert = false → s1.mode = st.mode ∧ s1.overwrite = none) ∧
      (st.arg.motion.insert = true → s1.mode = .viInsert ∧ s1.overwrite = none) ∧
      (st.arg.motion.copy = true → region st.buf (min st.idx r) (regionEnd inc st.buf st.idx r) ≠ [] →
        lastKilled s1 = some (region st.buf (min st.idx r) (regionEnd inc st.buf st.idx r))) := by
  obtain ⟨s0, i0, o0, ha⟩ := execMotion_split h hr he
  generalize min st.idx r = a at *
  generalize regionEnd inc st.buf st.idx r = b at *
  rw [← o0.arg] at hd hu hl ⊢
  have hb : ∀ x : St, x.buf = st.buf → x.mainLen = st.mainLen → (clearPrediction x).buf = st.buf.take (activeLength st) := by
    intro x h1 h2
    rw [← clear_buf st h.idx hmn, clearPrediction, clearPrediction, h1, h2]
    split
    · exact h1
    · rfl
  rw [applyMec] at ha
  simp only [hu, hl, hd, Bool.or_false, Bool.false_eq_true, if_false, if_true] at ha
  generalize hR : (if s0.arg.motion.copy = true then addToRing (region s0.buf a b) s0 else s0) = s2 at ha
  have k2 : s2.buf = s0.buf ∧ s2.mainLen = s0.mainLen ∧ s2.overwrite = s0.overwrite ∧ s2.idx = s0.idx ∧ s2.mode = s0.mode ∧
      (s0.arg.motion.copy = true → region s0.buf a b ≠ [] → lastKilled s2 = some (region s0.buf a b)) := by
    rw [← hR]
    split
    · have hadd : ∀ s, (addToRing s s0).buf = s0.buf ∧ (addToRing s s0).mainLen = s0.mainLen ∧ (addToRing s s0).overwrite = s0.overwrite ∧
          (addToRing s s0).idx = s0.idx ∧ (addToRing s s0).mode = s0.mode := by
        intro s; cases s <;> exact ⟨rfl, rfl, rfl, rfl, rfl⟩
      obtain ⟨q1, q2, q3, q4, q5⟩ := hadd (region s0.buf a b)
      exact ⟨q1, q2, q3, q4, q5, fun _ hne => addToRing_last i0.ringLen i0.next hne⟩
    · rename_i hc
      exact ⟨rfl, rfl, rfl, rfl, rfl, fun hc' => absurd hc' hc⟩
  obtain ⟨q1, q2, q3, q4, q5, q6⟩ := k2
  rw [o0.buf] at q1 q6
  rw [o0.mainLen] at q2
  rw [o0.overwrite, ho] at q3
  generalize (if (s0.arg.motion.toStart && s0.arg.motion.toEnd) = true then r
    else if s0.arg.motion.toStart = true then a else if s0.arg.motion.toEnd = true then b else s2.idx) = j at ha
  obtain ⟨e, hse, -⟩ := save_edit { s2 with idx := j }
  rw [hse] at ha
  have hcl := hb { s2 with idx := j, lastEdit := e } q1 q2
  have hk : Kept (clearPrediction { s2 with idx := j, lastEdit := e }) { s2 with idx := j, lastEdit := e } := kept_clear _
  have hml := (clear_idx { s2 with idx := j, lastEdit := e }).2
  generalize clearPrediction { s2 with idx := j, lastEdit := e } = s3 at *
  have ho3 : s3.overwrite = none := hk.overwrite.trans q3
  rw [deletePart, ho3] at ha
  simp only [Option.map_some, Option.some.injEq] at ha
  subst ha
  have hlk : lastKilled s3 = lastKilled s2 := by
    rw [lastKilled, lastKilled, hk.same.ring, hk.same.nextKill]
  rw [hcl]
  split
  · rename_i hi
    exact ⟨rfl, rfl, hml, rfl, (fun hf => by rw [hi] at hf; cases hf), fun _ => ⟨rfl, rfl⟩, fun hc hne => hlk.trans (q6 hc hne)⟩
  · rename_i hi
    exact ⟨rfl, rfl, hml, rfl, fun _ => ⟨hk.mode.trans (q5.trans o0.mode), rfl⟩, (fun hf => absurd hf hi), fun hc hne => hlk.trans (q6 hc hne)⟩

/-- An operator that changes the case of letters. -/
theorem execMotion_case {E : Env} {st s1 : St} {r : Nat} {inc : Bool} (h : Inv E st) (hmn : Main st) (hr : r ≤ st.buf.length) (hd : st.arg.motion.delete = false)
    (hc : st.arg.motion.upper = true ∨ st.arg.motion.lower = true) (ht : st.buf.take (activeLength st) = st.buf)
    (he : execMotion E r inc st = some s1) :
    s1.buf.take (activeLength s1) = st.buf.take (min st.idx r) ++ (region st.buf (min st.idx r) (regionEnd inc st.buf st.idx r)).map (caseOf E.chars st.arg.motion) ++
      st.buf.drop (regionEnd inc st.buf st.idx r) := by
  obtain ⟨s0, i0, o0, ha⟩ := execMotion_split h hr he
  have hidx := h.idx
  have hab : min st.idx r ≤ regionEnd inc st.buf st.idx r ∧ regionEnd inc st.buf st.idx r ≤ st.buf.length := by
    rw [regionEnd]; split <;> omega
  have hact : activeLength st = st.buf.length := by
    have := active_bounds st hidx
    have hl := congrArg List.length ht
    rw [List.length_take] at hl; omega
  generalize min st.idx r = a at *
  generalize regionEnd inc st.buf st.idx r = b at *
  rw [applyMec] at ha
  have hcc : (s0.arg.motion.upper || s0.arg.motion.lower) = true := by rw [o0.arg]; simpa using hc
  have hd0 : s0.arg.motion.delete = false := by rw [o0.arg]; exact hd
  simp only [hcc, hd0, if_true, Bool.false_eq_true, if_false, Option.map_some, Option.some.injEq] at ha
  generalize hR : (if s0.arg.motion.copy = true then addToRing (region s0.buf a b) s0 else s0) = s2 at ha
  have k2 : s2.buf = st.buf ∧ s2.mainLen = st.mainLen := by
    rw [← hR, ← o0.buf, ← o0.mainLen]
    split
    · generalize region s0.buf a b = x
      cases x <;> exact ⟨rfl, rfl⟩
    · exact ⟨rfl, rfl⟩
  rw [k2.1, o0.arg] at ha
  generalize hn : st.buf.take a ++ (region st.buf a b).map (caseOf E.chars st.arg.motion) ++ st.buf.drop b = new at *
  have hnl : new.length = st.buf.length := by
    rw [← hn]
    simp only [List.length_append, List.length_take, List.length_map, region_length _ _ _ hab.2, List.length_drop]
    omega
  have hx := extend_buf b { s2 with buf := new }
  have hxm : ∀ m, (extendMain b { s2 with buf := new }).mainLen = some m → st.buf.length ≤ m := by
    intro m hm
    have hgood : ∀ k, st.mainLen = some k → st.buf.length ≤ k := by
      intro k hk
      have hk' := hmn k hk
      rw [activeLength, hk] at hact
      dsimp only at hact
      split at hact
      · omega
      · split at hact <;> omega
    rw [extendMain] at hm
    dsimp only at hm
    rw [k2.2] at hm
    cases hml : st.mainLen with
    | none => rw [hml] at hm; cases hm
    | some k =>
      rw [hml] at hm
      have := hgood k hml
      dsimp only at hm
      split at hm
      · cases hm; omega
      · cases hm; exact this
  generalize extendMain b { s2 with buf := new } = s3 at *
  dsimp only at hx
  have fin : ∀ s4 : St, s4.buf = new → (∀ m, s4.mainLen = some m → st.buf.length ≤ m) → s4.buf.take (activeLength s4) = new := by
    intro s4 h1 h2
    have : new.length ≤ activeLength s4 := by
      rw [activeLength, h1]
      split
      · omega
      · rename_i m hm
        have := h2 m hm
        split
        · omega
        · split <;> omega
    rw [h1, List.take_of_length_le this]
  subst ha
  refine fin _ ?_ ?_
  · split <;> exact hx.1
  · split <;> exact hxm

end Yash.Edit
