import Verif.History.Sync
/-!
# What commands do to a shell that knows all the file
-/
set_option autoImplicit false

namespace Yash.History

open Yash.Spec.History

/-! ## Adding -/

theorem filter_ne_eq_eraseIdx {l : List Entry} (hnd : (l.map (·.number)).Nodup) {i : Nat} {e : Entry} (he : l[i]? = some e) :
    l.eraseIdx i = l.filter (fun f => f.number ≠ e.number) := by
  induction l generalizing i with
  | nil => simp at he
  | cons x l ih =>
    rw [List.map_cons, List.nodup_cons] at hnd
    cases i with
    | zero =>
      have hx : x = e := by simpa using he
      subst hx
      rw [List.eraseIdx_cons_zero, List.filter_cons_of_neg (by simp)]
      refine (List.filter_eq_self.mpr ?_).symm
      intro f hf
      simp only [ne_eq, decide_not, Bool.not_eq_eq_eq_not, Bool.not_true, decide_eq_false_iff_not]
      intro hc
      exact hnd.1 (hc ▸ List.mem_map_of_mem (f := fun e : Entry => e.number) hf)
    | succ i =>
      rw [List.getElem?_cons_succ] at he
      have hne : x.number ≠ e.number := by
        intro hc
        exact hnd.1 (hc ▸ List.mem_map_of_mem (f := fun e : Entry => e.number) (List.mem_of_getElem? he))
      rw [List.eraseIdx_cons_succ, ih hnd.2 he, List.filter_cons_of_pos (by simpa using hne)]

/-- A line that removes an entry. -/
theorem applyRec_del {P : Params} {l : List Entry} (h : Good P l) {i : Nat} {e : Entry} (he : l[i]? = some e) (ps : List Nat) :
    applyRec P (.del e.number) (l, ps) = some (l.eraseIdx i, ps) := by
  have hne : l.isEmpty = false := by cases l <;> simp at he ⊢
  have hs := search_entry h (n := e.number) (i := i) ⟨e, he, rfl⟩
  simp [applyRec, hne, hs]

/-- Lines that remove entries. -/
theorem replay_dels {P : Params} (ds : List Nat) (hds : ds.Nodup) {l : List Entry} (h : Good P l) (hm : ∀ d ∈ ds, d ∈ l.map (·.number)) (ps : List Nat) :
    replay P (ds.map Rec.del) (l, ps) = some (l.filter (fun e => e.number ∉ ds), ps) := by
  induction ds generalizing l with
  | nil =>
    rw [List.map_nil, replay, List.filter_eq_self.mpr (by simp)]
  | cons d ds ih =>
    rw [List.nodup_cons] at hds
    obtain ⟨e, hel, hed⟩ := List.mem_map.mp (hm d (by simp))
    obtain ⟨i, hi⟩ := List.mem_iff_getElem?.mp hel
    subst hed
    rw [List.map_cons, replay, applyRec_del h hi, Option.bind_some, ih hds.2 (eraseIdx_good h i), filter_ne_eq_eraseIdx (cyclic_nodup h.2) hi, List.filter_filter]
    · congr 2
      refine List.filter_congr fun f _ => ?_
      by_cases h1 : f.number = e.number <;> by_cases h2 : f.number ∈ ds <;> simp [h1, h2]
    · intro d hd
      obtain ⟨f, hf, hfd⟩ := List.mem_map.mp (hm d (by simp [hd]))
      refine List.mem_map.mpr ⟨f, ?_, hfd⟩
      rw [filter_ne_eq_eraseIdx (cyclic_nodup h.2) hi]
      refine List.mem_filter.mpr ⟨hf, ?_⟩
      simp only [ne_eq, decide_not, Bool.not_eq_eq_eq_not, Bool.not_true, decide_eq_false_iff_not]
      intro hc
      exact hds.1 (hc ▸ hfd ▸ hd)

/-- What is left is what does not have the numbers that are removed. -/
theorem removeDuplicates_filter {P : Params} {l : List Entry} (h : Good P l) (line : Str) :
    (removeDuplicates P line l).2.Nodup ∧ (∀ d ∈ (removeDuplicates P line l).2, d ∈ l.map (·.number)) ∧
    (removeDuplicates P line l).1 = l.filter (fun e => e.number ∉ (removeDuplicates P line l).2) := by
  have hnd := cyclic_nodup h.2
  have hsub : ((removeDuplicates P line l).2.reverse).Sublist (l.map (·.number)) := by
    simp only [removeDuplicates, ← List.map_reverse, ← List.filter_reverse, List.reverse_reverse]
    exact (List.filter_sublist.trans (List.drop_sublist _ _)).map _
  have hsplit : l = l.take (l.length - P.rmdup) ++ l.drop (l.length - P.rmdup) := (List.take_append_drop _ _).symm
  refine ⟨?_, ?_, ?_⟩
  · have := hnd.sublist hsub
    rw [List.Nodup, List.pairwise_reverse] at this
    exact this.imp (fun h => h.symm)
  · intro d hd
    exact hsub.subset (List.mem_reverse.mpr hd)
  · have hmem : ∀ d, d ∈ (removeDuplicates P line l).2 ↔ ∃ e ∈ l.drop (l.length - P.rmdup), e.value = line ∧ e.number = d := by
      intro d
      simp only [removeDuplicates, List.mem_map, List.mem_filter, List.mem_reverse, decide_eq_true_eq, and_assoc]
    have hrhs : l.filter (fun e => e.number ∉ (removeDuplicates P line l).2) =
        (l.take (l.length - P.rmdup)).filter (fun e => e.number ∉ (removeDuplicates P line l).2) ++
        (l.drop (l.length - P.rmdup)).filter (fun e => e.number ∉ (removeDuplicates P line l).2) := by
      rw [← List.filter_append, List.take_append_drop]
    rw [hrhs]
    have hnd' := hnd
    rw [hsplit, List.map_append, List.nodup_append] at hnd'
    have h1 : (l.take (l.length - P.rmdup)).filter (fun e => e.number ∉ (removeDuplicates P line l).2) = l.take (l.length - P.rmdup) := by
      refine List.filter_eq_self.mpr fun e he => ?_
      simp only [decide_eq_true_eq, hmem]
      rintro ⟨f, hf, _, hn⟩
      exact hnd'.2.2 _ (List.mem_map_of_mem (f := fun e : Entry => e.number) he) _ (List.mem_map_of_mem (f := fun e : Entry => e.number) hf) hn.symm
    rw [h1]
    simp only [removeDuplicates]
    congr 1
    refine List.filter_congr fun e he => ?_
    have : (e.number ∈ (removeDuplicates P line l).2) ↔ e.value = line := by
      rw [hmem]
      constructor
      · rintro ⟨f, hf, hv, hn⟩
        have hinj : f = e := by
          have h2 := hnd'.2.1
          rw [List.Nodup, List.pairwise_map] at h2
          by_cases hfe : f = e
          · exact hfe
          · exfalso
            obtain ⟨i, hi⟩ := List.mem_iff_getElem?.mp hf
            obtain ⟨j, hj⟩ := List.mem_iff_getElem?.mp he
            have g' : Good P (l.drop (l.length - P.rmdup)) := good_sublist h (List.drop_sublist _ _)
            have := numberAt_entry_unique g' (n := e.number) ⟨f, hi, hn⟩ ⟨e, hj, rfl⟩
            subst this
            rw [hi] at hj
            exact hfe (Option.some.inj hj)
        exact hinj ▸ hv
      · intro hv
        exact ⟨e, he, hv, rfl⟩
    simp only [removeDuplicates] at this
    simp only [this]

/-- Adding a line. -/
theorem addLine_sync {L : Libc} {P : Params} {R : Nat → Prop} (hP : Sane P) {m : Moment} {rev : Nat} {rs : List Rec} {g : List Entry} {x : Shell × List Str}
    (h : Sync L P R m.now rev rs g x) {line : Str} (hs : line.length + 34 < L.lineMax) (hc : '\n' ∉ line) :
    ∃ y g' ts, addLine L P m line x = some y ∧ Added P L.graph m.now line g g' ∧ Sync L P R m.now rev (rs ++ ts) g' y ∧ Replays L P R R ts g g' ∧ y.1.pid = x.1.pid := by
  have hlist := h.list
  subst hlist
  have hg := h.filed.good
  have hany : (line.any L.graph = true) ↔ ∃ c ∈ line, L.graph c = true := List.any_eq_true
  by_cases hv : ∃ c ∈ line, L.graph c = true
  · have hd := removeDuplicates_spec P line x.1.list
    have hg1 : Good P (removeDuplicates P line x.1.list).1 := good_sublist hg (removeDuplicates_sublist P line x.1.list)
    have hsub := removeDuplicates_sublist P line x.1.list
    obtain ⟨f1, f2, f3⟩ := removeDuplicates_filter hg line
    rw [addLine, if_pos (hany.mpr hv)]
    generalize removeDuplicates P line x.1.list = rd at hd hg1 f1 f2 f3 hsub
    obtain ⟨l1, ds⟩ := rd
    simp only at hd hg1 f1 f2 f3 hsub ⊢
    have hrange := nextNumber_range hP.max l1
    obtain ⟨l2, hl2, ha⟩ := newEntry_appended (by have := hP.size; omega) (some m.now) line hg1 hrange.1 hrange.2
    simp only [h.isOpen, if_true, hl2, Option.bind_eq_bind, Option.bind_some]
    have w := wrote_many Rec.del ds x
    have w' : Wrote (ds.map Rec.del) x (ds.foldl (fun y d => writeLine ('d' :: numeral 16 d) y) x) := w
    have ho : (ds.foldl (fun y d => writeLine ('d' :: numeral 16 d) y) x).1.isOpen = true := by rw [w'.isOpen, h.isOpen]
    generalize (ds.foldl (fun y d => writeLine ('d' :: numeral 16 d) y) x) = z at w' ho
    simp only [ho, if_true]
    rw [writeEntry_short (e := ⟨nextNumber P l1, some m.now, line⟩) hs]
    have hnew : EntryOk L P m.now ⟨nextNumber P l1, some m.now, line⟩ := ⟨hrange, by intro t ht; cases ht; exact Nat.le_refl _, hs, hc⟩
    refine ⟨_, l2, ds.map Rec.del ++ [.entry ⟨nextNumber P l1, some m.now, line⟩], rfl, Or.inl ⟨hv, l1, _, hd, nextNumber_successor hg1, ha⟩, ?_⟩
    · have hrep : Replays L P R R (ds.map Rec.del ++ [.entry ⟨nextNumber P l1, some m.now, line⟩]) x.1.list l2 := by
        intro qs hq
        refine ⟨qs, ?_, hq⟩
        rw [replay_append, replay_dels ds f1 hg f2, Option.bind_some, ← f3]
        simp [replay, applyRec, hl2]
      have hfiled := h.filed.write (ts := ds.map Rec.del ++ [.entry ⟨nextNumber P l1, some m.now, line⟩]) (g' := l2) (R' := R) (by
        intro r hr
        rcases List.mem_append.mp hr with hr | hr
        · obtain ⟨d, hd, rfl⟩ := List.mem_map.mp hr
          exact (hg.2.1 d (f2 d hd)).2
        · rw [List.mem_singleton.mp hr]
          exact hnew) hrep ha.1 (by
        intro e he
        obtain ⟨_, k, rfl, _⟩ := ha
        rcases List.mem_append.mp he with he | he
        · exact h.filed.entries e (hsub.subset (List.mem_of_mem_drop he))
        · rw [List.mem_singleton.mp he]; exact hnew)
      refine ⟨⟨?_, rfl, ?_, ?_, ?_, ?_⟩, hrep, ?_⟩
      · simp only [writeLine, w'.file]
        simpa [Rec.text] using hfiled
      · simp only [writeLine, w'.pids]; exact h.pids
      · simp only [writeLine, w'.rev]; exact h.rev
      · simp [writeLine]
      · simp only [writeLine, w'.isOpen, h.isOpen]
      · simp only [writeLine, w'.pid]
  · rw [addLine, if_neg (fun hc => hv (hany.mp hc))]
    exact ⟨x, _, [], rfl, Or.inr ⟨hv, rfl⟩, by simpa using h, Replays.refl _ _, rfl⟩

theorem addLines_sync {L : Libc} {P : Params} {R : Nat → Prop} (hP : Sane P) {m : Moment} (lines : List Str) {rev : Nat} {rs : List Rec} {g : List Entry} {x : Shell × List Str}
    (h : Sync L P R m.now rev rs g x) (hs : ∀ line ∈ lines, line.length + 34 < L.lineMax ∧ '\n' ∉ line) :
    ∃ y g' ts, addLines L P m lines x = some y ∧ AddedAll P L.graph m.now lines g g' ∧ Sync L P R m.now rev (rs ++ ts) g' y ∧ Replays L P R R ts g g' ∧ y.1.pid = x.1.pid := by
  induction lines generalizing rs g x with
  | nil => exact ⟨x, g, [], rfl, .nil _, by simpa using h, Replays.refl _ _, rfl⟩
  | cons line rest ih =>
    obtain ⟨y, g1, ts, hy, ha, hsy, hr, hp⟩ := addLine_sync hP h (hs line (by simp)).1 (hs line (by simp)).2
    obtain ⟨z, g2, us, hz, haz, hsz, hrz, hpz⟩ := ih hsy (fun l hl => hs l (by simp [hl]))
    refine ⟨z, g2, ts ++ us, ?_, .cons ha haz, by rw [← List.append_assoc]; exact hsz, hr.trans hrz, by rw [hpz, hp]⟩
    rw [addLines, hy, Option.bind_some, hz]

/-! ## Deleting -/

/-- An index that is found is that of an entry with the number. -/
theorem getEntry_sound {P : Params} {l : List Entry} (h : Good P l) {n i : Nat} (hg : getEntry P n l = some (some i)) : NumberAt l n (.entry i) := by
  by_cases hne : l = []
  · subst hne
    simp [getEntry, search] at hg
  by_cases hb : Beyond l n
  · exfalso
    obtain ⟨⟨o, w, ho, hw, how⟩, hn⟩ := hb
    have hOld : fromOldest n l = none := by
      rcases hn with hn | hn
      · have h1 : l.dropWhile (fun e => n < e.number) = l := by
          cases l with
          | nil => rfl
          | cons x l =>
            have := hn x (by simp)
            rw [List.dropWhile_cons_of_neg (by simp; omega)]
        have h2 : l.dropWhile (fun e => n > e.number) = [] := by
          have := List.dropWhile_append_of_pos (p := fun e : Entry => decide (n > e.number)) (l₁ := l) (l₂ := []) (by simpa using hn)
          simpa using this
        simp only [fromOldest, h1, h2]
      · have h1 : l.dropWhile (fun e => n < e.number) = [] := by
          have := List.dropWhile_append_of_pos (p := fun e : Entry => decide (n < e.number)) (l₁ := l) (l₂ := []) (by simpa using hn)
          simpa using this
        simp only [fromOldest, h1, List.dropWhile_nil]
    have hNew : fromNewest n l = none := by
      rcases hn with hn | hn
      · have h1 : l.reverse.dropWhile (fun e => n > e.number) = [] := by
          have := List.dropWhile_append_of_pos (p := fun e : Entry => decide (n > e.number)) (l₁ := l.reverse) (l₂ := []) (by simpa using hn)
          simpa using this
        simp only [fromNewest, h1, List.dropWhile_nil]
      · have h1 : l.reverse.dropWhile (fun e => n > e.number) = l.reverse := by
          cases hr : l.reverse with
          | nil => rfl
          | cons x r =>
            have := hn x (by rw [← List.mem_reverse, hr]; simp)
            rw [List.dropWhile_cons_of_neg (by simp; omega)]
        have h2 : l.reverse.dropWhile (fun e => n < e.number) = [] := by
          have := List.dropWhile_append_of_pos (p := fun e : Entry => decide (n < e.number)) (l₁ := l.reverse) (l₂ := []) (by simpa using hn)
          simpa using this
        simp only [fromNewest, h1, h2]
    simp only [getEntry, search, ho, hw, hOld, hNew] at hg
    (repeat' split at hg) <;> simp at hg
  · obtain ⟨p, hp, hs⟩ := search_place h hne hb
    rw [getEntry, hs] at hg
    cases p with
    | entry j =>
      simp [ofPlace] at hg
      exact hg ▸ hp
    | between j => simp [ofPlace] at hg
    | before => simp [ofPlace] at hg
    | after => simp [ofPlace] at hg

/-- What `history -d` removes. -/
theorem deleteTarget_effect {P : Params} {intMax : Nat} {l : List Entry} (h : Good P l) (hi : P.size ≤ intMax) {o : Operand} {t : Option Nat}
    (ht : deleteTarget P intMax o l = some t) :
    (∀ i, t = some i → ∃ e, l[i]? = some e) ∧ ∀ visible blank now, Effect P visible blank now (.delete o) l (match t with
      | some i => l.eraseIdx i
      | none => l) := by
  cases o with
  | str s =>
    simp only [deleteTarget, Option.some.injEq] at ht
    cases t with
    | none =>
      refine ⟨by simp, fun _ _ _ => Or.inr (Or.inr ⟨?_, by simp, rfl⟩)⟩
      intro i hd
      cases hd with
      | str hn => rw [searchPrefix_some.mpr hn] at ht; simp at ht
    | some i =>
      have hn := searchPrefix_some.mp ht
      refine ⟨?_, fun _ _ _ => Or.inl ⟨i, .str hn, rfl⟩⟩
      rintro j hj
      cases hj
      obtain ⟨⟨e, _, he, _⟩, _⟩ := hn
      exact ⟨e, he⟩
  | number n =>
    simp only [deleteTarget] at ht
    split at ht
    · rename_i hn
      obtain ⟨k, rfl⟩ := Int.eq_ofNat_of_zero_le hn
      simp only [Int.toNat_natCast] at ht
      cases t with
      | none =>
        refine ⟨by simp, fun _ _ _ => Or.inr (Or.inr ⟨?_, ?_, rfl⟩)⟩
        · intro i hd
          generalize ho : Operand.number (k : Int) = o at hd
          generalize hp : Place.entry i = p at hd
          cases hd with
          | @number k' _ hk hat =>
            simp only [Operand.number.injEq, Int.natCast_inj] at ho
            subst ho
            subst hp
            obtain ⟨e, he, hen⟩ := hat
            rw [← hen, found_by_number h he] at ht
            simp at ht
          | back hk _ => simp only [Operand.number.injEq] at ho; omega
          | tooFar _ => cases hp
          | str _ => cases ho
        · intro j hj
          simp only [Operand.number.injEq] at hj
          omega
      | some i =>
        have hat := getEntry_sound h ht
        obtain ⟨e, he, hen⟩ := hat
        refine ⟨?_, fun _ _ _ => Or.inl ⟨i, ?_, rfl⟩⟩
        · rintro j hj
          cases hj
          exact ⟨e, he⟩
        · have := (h.2.1 e.number (List.mem_map_of_mem (f := fun e : Entry => e.number) (List.mem_of_getElem? he))).1
          exact .number (by omega) ⟨e, he, hen⟩
    · rename_i hn
      obtain ⟨k, rfl⟩ : ∃ k : Nat, n = -(k : Int) := ⟨(-n).toNat, by omega⟩
      simp only [Option.some.injEq] at ht
      have hk : 0 < k := by omega
      have hlen := h.1
      by_cases hkl : k ≤ l.length
      · rw [if_neg (by omega)] at ht
        have : (- -(k : Int)).toNat = k := by omega
        rw [this, nthNewest_back hk hkl] at ht
        subst ht
        refine ⟨?_, fun _ _ _ => Or.inl ⟨_, .back hk hkl, rfl⟩⟩
        rintro j hj
        cases hj
        exact ⟨_, List.getElem?_eq_getElem (by omega)⟩
      · have hge : l.length ≤ (if -(k : Int) < -(intMax : Int) then intMax else (- -(k : Int)).toNat) := by split <;> omega
        by_cases hne : l = []
        · subst hne
          have : t = none := by
            rw [← ht, nthNewest]
            simp
          subst this
          exact ⟨by simp, fun _ _ _ => Or.inr (Or.inl ⟨k, rfl, by simpa using hk, rfl⟩)⟩
        · rw [nthNewest_tooFar hne hge] at ht
          subst ht
          refine ⟨?_, fun _ _ _ => Or.inr (Or.inl ⟨k, rfl, by omega, ?_⟩)⟩
          · rintro j hj
            cases hj
            cases l with
            | nil => exact absurd rfl hne
            | cons x l => exact ⟨x, rfl⟩
          · cases l with
            | nil => rfl
            | cons x l => rfl

end Yash.History
