import Verif.History.Commands
/-!
# C63: shells that share a history file
-/
set_option autoImplicit false

namespace Yash.History

open Yash.Spec.History

/-! ## One command -/

/-- The state after a command, for the other shells and for the one that performed it. -/
def Outcome (L : Libc) (P : Params) (R R' : Nat → Prop) (m : Moment) (g : List Entry) (rev : Nat) (rs : List Rec) (pid : Nat) (g' : List Entry) (y : Shell × List Str) : Prop :=
  ∃ rev' rs', Filed L P R' m.now rev' rs' g' y.2 ∧ View L P R' rev' rs' g' y.1 ∧ Ext L P R R' g g' rev rs rev' rs' ∧ y.1.pid = pid

theorem Result.outcome {L : Libc} {P : Params} {R : Nat → Prop} {m : Moment} {g g' : List Entry} {rev : Nat} {rs : List Rec} {pid : Nat} {y : Shell × List Str}
    (h : Result L P R m g rev rs pid g' y) : Outcome L P R R m g rev rs pid g' y := by
  obtain ⟨rev', rs', h1, h2, h3⟩ := h
  exact ⟨rev', rs', h1.filed, h1.view, h2, h3⟩

/-- Lines that fit into the history file. -/
def Short (L : Libc) : Command → Prop
  | .add text => ∀ lines, LinesOf text lines → ∀ line ∈ lines, line.length + 34 < L.lineMax
  | .read lines => ∀ line ∈ lines, line.length + 34 < L.lineMax ∧ '\n' ∉ line
  | _ => True

/-- An operand of `history -d` that can be looked for. -/
def Findable (l : List Entry) : Command → Prop
  | .delete o => ∀ n : Nat, o = .number n → ¬ Beyond l n
  | _ => True

theorem deleteTarget_defined {P : Params} (intMax : Nat) {l : List Entry} (h : Good P l) {o : Operand} (ho : Findable l (.delete o)) : ∃ t, deleteTarget P intMax o l = some t := by
  cases o with
  | str s => exact ⟨_, rfl⟩
  | number n =>
    simp only [deleteTarget]
    split
    · rename_i hn
      obtain ⟨k, rfl⟩ := Int.eq_ofNat_of_zero_le hn
      simp only [Int.toNat_natCast, getEntry]
      by_cases hne : l = []
      · subst hne
        exact ⟨_, rfl⟩
      · obtain ⟨p, _, hs⟩ := search_place h hne (ho k rfl)
        rw [hs]
        exact ⟨_, rfl⟩
    · exact ⟨_, rfl⟩

theorem replays_last {L : Libc} {P : Params} (R : Nat → Prop) (g : List Entry) : Replays L P R R [.last] g g.dropLast := fun qs hq => ⟨qs, rfl, hq⟩

theorem replays_del {L : Libc} {P : Params} (R : Nat → Prop) {g : List Entry} (hg : Good P g) {i : Nat} {e : Entry} (he : g[i]? = some e) :
    Replays L P R R [.del e.number] g (g.eraseIdx i) := by
  intro qs hq
  refine ⟨qs, ?_, hq⟩
  rw [replay, applyRec_del hg he]
  rfl

/-- A line that does not change the running shells is written. -/
theorem Sync.wrote {L : Libc} {P : Params} {R : Nat → Prop} {clock rev : Nat} {rs : List Rec} {g : List Entry} {x : Shell × List Str} (h : Sync L P R clock rev rs g x)
    {r : Rec} (hok : r.Ok L P clock) {g' : List Entry} (hsub : g'.Sublist g) (hr : Replays L P R R [r] g g') {y : Shell × List Str} (hf : y.2 = x.2 ++ [r.text])
    (hl : y.1.list = g') (hpids : y.1.pids = x.1.pids) (hrev : y.1.rev = x.1.rev) (ho : y.1.isOpen = x.1.isOpen) (hp : y.1.pos = y.2.length) :
    Sync L P R clock rev (rs ++ [r]) g' y := by
  refine ⟨?_, hl, by rw [hpids]; exact h.pids, by rw [hrev, h.rev], hp, by rw [ho, h.isOpen]⟩
  rw [hf]
  exact h.filed.write (ts := [r]) (by simpa using hok) hr (good_sublist h.filed.good hsub) (fun e he => h.filed.entries e (hsub.subset he))

/-- Every command has its effect on what is shared. -/
theorem perform_outcome {L : Libc} (hL : LibcOk L) {P : Params} {R : Nat → Prop} (hS : Sane P) (hP : P.max < word) {intMax : Nat} (hi : P.size ≤ intMax) {clock rev : Nat}
    {rs : List Rec} {g : List Entry} {x : Shell × List Str} (hf : Filed L P R clock rev rs g x.2) (hv : View L P R rev rs g x.1) (hR : R x.1.pid) {m : Moment}
    (hcn : clock ≤ m.now) (hn : m.now < word) (hrev : rev < L.longMax) (ha : ∀ q, R q → m.alive q = true) {c : Command} (hc : Short L c) :
    (∀ y, perform L P intMax m c x = some y → ∃ g', Effect P L.graph L.blank m.now c g g' ∧ Outcome L P R R m g rev rs x.1.pid g' y) ∧
    (Findable g c → ∃ y, perform L P intMax m c x = some y) := by
  have hup := update_result hL hS hP hf hv hR hcn hn hrev ha
  have fin : ∀ {z : Option (Shell × List Str)} {y : Shell × List Str} {g' : List Entry}, z = some y → Effect P L.graph L.blank m.now c g g' → Outcome L P R R m g rev rs x.1.pid g' y →
      (∀ y, z = some y → ∃ g', Effect P L.graph L.blank m.now c g g' ∧ Outcome L P R R m g rev rs x.1.pid g' y) ∧ (Findable g c → ∃ y, z = some y) := by
    intro z y g' h1 h2 h3
    refine ⟨?_, fun _ => ⟨y, h1⟩⟩
    intro y' h
    rw [h1] at h
    cases h
    exact ⟨g', h2, h3⟩
  have hsame : Outcome L P R R m g rev rs x.1.pid g x := ⟨rev, rs, hf.mono hcn, hv, Ext.refl _ _ _ _, rfl⟩
  cases c with
  | add text =>
    have hb : ((text.head?.map L.blank).getD false = true) ↔ ∃ c rest, text = c :: rest ∧ L.blank c = true := by
      cases text with
      | nil => simp
      | cons c cs => simp
    simp only [perform, addHistory]
    by_cases hsp : (P.space && (text.head?.map L.blank).getD false) = true
    · rw [if_pos hsp]
      rw [Bool.and_eq_true, hb] at hsp
      exact fin rfl (Or.inl ⟨hsp.1, hsp.2, rfl⟩) hsame
    · rw [if_neg hsp]
      rw [Bool.and_eq_true, hb] at hsp
      obtain ⟨y, hy, ⟨rev', rs', hs, he, hp⟩, _⟩ := hup true
      have hlo := splitText_linesOf text
      obtain ⟨z, g', ts, hz, haz, hsz, hrz, hpz⟩ := addLines_sync hS (splitText text) hs (fun line hl => ⟨hc _ hlo line hl, hlo.2.1 line hl⟩)
      refine fin (y := z) (g' := g') ?_ (Or.inr ⟨hsp, _, hlo, haz⟩) (Result.outcome ⟨rev', rs' ++ ts, hsz, he.trans (Or.inl ⟨rfl, ts, rfl, hrz⟩), by rw [hpz, hp]⟩)
      rw [hy, Option.bind_some, hz]
  | read lines =>
    obtain ⟨y, hy, ⟨_, _, _, _, hp⟩, hk⟩ := hup false
    obtain ⟨_, hs⟩ := hk rfl
    have hfil : lines.filter (fun line => !L.skipped line) = lines := by
      refine List.filter_eq_self.mpr fun line hl => ?_
      rw [hL.skipped line (by have := (hc line hl).1; omega)]
      rfl
    obtain ⟨z, g', ts, hz, haz, hsz, hrz, hpz⟩ := addLines_sync hS lines hs hc
    obtain ⟨rev', rs', h1, h2, h3⟩ := hsz.maybeRefreshed hS hrev ha
    refine fin (y := maybeRefresh L m z) (g' := g') ?_ haz (Result.outcome ⟨rev', rs', h1, Ext.trans (Or.inl ⟨rfl, ts, rfl, hrz⟩) h2, by rw [h3, hpz, hp]⟩)
    simp only [perform, fcRead, hy, hfil, hz, Option.bind_eq_bind, Option.bind_some, hsz.isOpen, if_true]
  | removeLast =>
    obtain ⟨y, hy, ⟨rev', rs', hs, he, hp⟩, _⟩ := hup true
    have hw := hs.wrote (r := .last) trivial (List.dropLast_sublist g) (replays_last R g) (y := writeLine ['c'] ({ y.1 with list := removeLast y.1.list }, y.2)) rfl
      (by rw [← hs.list]; rfl) rfl rfl rfl (by simp [writeLine])
    refine fin (g' := g.dropLast) ?_ rfl (Result.outcome ⟨rev', _, hw, he.trans (Or.inl ⟨rfl, _, rfl, replays_last R g⟩), hp⟩)
    simp only [perform, fcRemoveLast, hy, Option.bind_eq_bind, Option.bind_some, hs.isOpen, if_true]
  | delete o =>
    obtain ⟨y, hy, ⟨rev', rs', hs, he, hp⟩, _⟩ := hup true
    have hg := hf.good
    have key : ∀ t, deleteTarget P intMax o g = some t → ∃ z g', (delete L P intMax m o x).map (·.2) = some z ∧ Effect P L.graph L.blank m.now (.delete o) g g' ∧
        Outcome L P R R m g rev rs x.1.pid g' z := by
      intro t ht
      obtain ⟨h1, h2⟩ := deleteTarget_effect hg hi ht
      cases t with
      | none =>
        refine ⟨y, g, ?_, h2 _ _ _, Result.outcome ⟨rev', rs', hs, he, hp⟩⟩
        simp only [delete, hy, hs.list, ht, Option.bind_eq_bind, Option.bind_some, Option.map_some]
      | some i =>
        obtain ⟨e, hei⟩ := h1 i rfl
        have hnum := hg.2.1 e.number (List.mem_map_of_mem (f := fun e : Entry => e.number) (List.mem_of_getElem? hei))
        have hw := hs.wrote (r := .del e.number) hnum.2 (List.eraseIdx_sublist g i) (replays_del R hg hei)
          (y := ({ (writeLine ('d' :: numeral 16 e.number) y).1 with list := y.1.list.eraseIdx i }, (writeLine ('d' :: numeral 16 e.number) y).2)) rfl
          (by rw [← hs.list]) rfl rfl rfl (by simp [writeLine])
        refine ⟨_, g.eraseIdx i, ?_, h2 _ _ _, Result.outcome ⟨rev', _, hw, he.trans (Or.inl ⟨rfl, _, rfl, replays_del R hg hei⟩), hp⟩⟩
        simp only [delete, hy, hs.list, ht, hei, Option.bind_eq_bind, Option.bind_some, Option.map_some, hs.isOpen, if_true, writeLine_list]
    refine ⟨?_, ?_⟩
    · intro z hz
      have hz' := hz
      simp only [perform, delete, hy, hs.list, Option.bind_eq_bind, Option.bind_some] at hz'
      cases ht : deleteTarget P intMax o g with
      | none => rw [ht] at hz'; simp at hz'
      | some t =>
        obtain ⟨z', g', h1, h2, h3⟩ := key t ht
        simp only [perform] at hz
        rw [h1] at hz
        cases hz
        exact ⟨g', h2, h3⟩
    · intro hfind
      obtain ⟨t, ht⟩ := deleteTarget_defined intMax hg hfind
      obtain ⟨z, _, h1, _⟩ := key t ht
      exact ⟨z, h1⟩
  | clear =>
    obtain ⟨y, hy, ⟨_, _, _, _, hp⟩, hk⟩ := hup false
    obtain ⟨_, hs⟩ := hk rfl
    obtain ⟨rev', rs', h1, h2, h3, h4⟩ := refreshFile_sync (L := L) (P := P) (R := R) hS (clock := m.now) (sh := { y.1 with list := [] }) y.2 (good_nil P) (by simp) hs.pids
      (by intro r hr; rw [hs.rev] at hr; cases hr; omega) hs.isOpen
    have := h4 rev hs.rev hrev
    refine fin (g' := []) ?_ rfl (Result.outcome ⟨rev', rs', h1, Or.inr (by omega), by rw [h3]; exact hp⟩)
    simp only [perform, clearAll, hy, Option.bind_eq_bind, Option.bind_some, hs.isOpen, if_true]
  | refresh =>
    obtain ⟨y, hy, ⟨_, _, _, _, hp⟩, hk⟩ := hup false
    obtain ⟨_, hs⟩ := hk rfl
    have := hs.refreshed hS hrev ha
    rw [hp] at this
    refine fin (g' := g) ?_ rfl this.outcome
    simp only [perform, refreshHistory, hy, Option.bind_eq_bind, Option.bind_some, hs.isOpen, if_true]
  | use =>
    obtain ⟨y, hy, hres, _⟩ := hup false
    exact fin hy rfl hres.outcome

/-! ## Shells that start and end -/

theorem replays_join {L : Libc} {P : Params} (R : Nat → Prop) (g : List Entry) {pid : Nat} (h : 0 < pid ∧ pid ≤ L.longMax) :
    Replays L P R (fun q => q = pid ∨ R q) [.join pid] g g := by
  intro qs hq
  refine ⟨addPid pid qs, rfl, ?_, ?_⟩
  · intro q hq'
    rw [addPid]
    split
    · rcases hq' with rfl | hq'
      · assumption
      · exact hq.1 q hq'
    · rcases hq' with rfl | hq'
      · simp
      · exact List.mem_append_left _ (hq.1 q hq')
  · intro q hq'
    rw [addPid] at hq'
    split at hq'
    · exact hq.2 q hq'
    · rcases List.mem_append.mp hq' with hq' | hq'
      · exact hq.2 q hq'
      · rw [List.mem_singleton.mp hq']; exact h

theorem replays_leave {L : Libc} {P : Params} (R : Nat → Prop) (g : List Entry) (pid : Nat) : Replays L P R (fun q => q ≠ pid ∧ R q) [.leave pid] g g := by
  intro qs hq
  refine ⟨qs.filter (· ≠ pid), rfl, ?_, ?_⟩
  · intro q hq'
    exact List.mem_filter.mpr ⟨hq.1 q hq'.2, by simpa using hq'.1⟩
  · intro q hq'
    exact hq.2 q (List.mem_filter.mp hq').1

/-- The end of `maybe_init_history`. -/
theorem joined {L : Libc} {P : Params} {R : Nat → Prop} {clock rev : Nat} {rs : List Rec} {g : List Entry} {x : Shell × List Str} (h : Sync L P R clock rev rs g x)
    {pid : Nat} (hp : 0 < pid ∧ pid ≤ L.longMax) :
    Sync L P (fun q => q = pid ∨ R q) clock rev (rs ++ [.join pid]) g (writeLine ('p' :: numeral 10 pid) ({ x.1 with pids := addPid pid x.1.pids }, x.2)) := by
  refine ⟨?_, h.list, ?_, h.rev, by simp [writeLine], h.isOpen⟩
  · exact h.filed.write (ts := [.join pid]) (by simpa [Rec.Ok] using hp) (replays_join R g hp) h.filed.good h.filed.entries
  · obtain ⟨qs, h1, h2⟩ := replays_join (P := P) R g hp x.1.pids h.pids
    simp only [replay, applyRec, Option.bind_some, Option.some.injEq, Prod.mk.injEq, true_and] at h1
    rw [← h1] at h2
    exact h2

theorem renumber_renumbered (l : List Entry) : Renumbered l (renumber l) := by
  refine ⟨by simp [renumber], ?_⟩
  intro i e he
  simp [renumber, he]

theorem renumber_ok {L : Libc} {P : Params} {clock : Nat} {l : List Entry} (hg : Good P (renumber l)) (h : ∀ e ∈ l, EntryOk L P clock e) : ∀ e ∈ renumber l, EntryOk L P clock e := by
  intro e he
  obtain ⟨i, hi⟩ := List.mem_iff_getElem?.mp he
  obtain ⟨f, hf, hfe⟩ : ∃ f, f ∈ l ∧ e = { f with number := i + 1 } := by
    have hlt : i < l.length := by
      have := (List.getElem?_eq_some_iff.mp hi).1
      simpa [renumber] using this
    have h1 := (renumber_renumbered l).2 i l[i] (List.getElem?_eq_getElem hlt)
    rw [hi] at h1
    exact ⟨_, List.getElem_mem hlt, Option.some.inj h1⟩
  have hn := hg.2.1 e.number (List.mem_map_of_mem (f := fun e : Entry => e.number) he)
  have := h f hf
  subst hfe
  exact ⟨hn, this.time, this.short, this.clean⟩

/-- A shell that is started while others are running, or after they have ended. -/
theorem init_outcome {L : Libc} (hL : LibcOk L) {P : Params} {R : Nat → Prop} (hS : Sane P) (hP : P.max < word) (hsm : P.size ≤ P.max) {clock rev : Nat} {rs : List Rec}
    {g : List Entry} {file : List Str} (hf : Filed L P R clock rev rs g file) {m : Moment} (hcn : clock ≤ m.now) (hn : m.now < word) (hrev : rev < L.longMax)
    (ha : ∀ q, R q → m.alive q = true) {pid : Nat} (hp : 0 < pid ∧ pid ≤ L.longMax) :
    ∃ y g', initHistory L P m pid file = some y ∧ (g' = g ∨ ((∀ q, ¬ R q) ∧ Renumbered g g')) ∧ Outcome L P R (fun q => q = pid ∨ R q) m g rev rs pid g' y := by
  have hsig : readSignature L file = some rev := by rw [hf.file, readSignature_fileOf hL hf.revle]
  obtain ⟨ps, hp1, hp2⟩ := hf.replays
  have hd : file.drop 1 = rs.map Rec.text := by rw [hf.file, fileOf]; rfl
  have hread := readLines_texts hL hP hcn hn rs hf.ok { pid := pid, isOpen := true, rev := some rev }
  simp only [hp1, Option.map_some] at hread
  have hsub : Pids L R (ps.filter m.alive) := hp2.filter ha
  suffices h : ∃ z g' rev' rs', startReading L P m { pid := pid, isOpen := true } file = some z ∧ (g' = g ∨ ((∀ q, ¬ R q) ∧ Renumbered g g')) ∧
      Sync L P R m.now rev' rs' g' z ∧ Ext L P R R g g' rev rs rev' rs' ∧ z.1.pid = pid by
    obtain ⟨z, g', rev', rs', h1, h2, h3, h4, h5⟩ := h
    have hj := joined h3 hp
    refine ⟨_, g', by rw [initHistory, h1]; rfl, h2, rev', _, hj.filed, hj.view, h4.trans (Or.inl ⟨rfl, _, rfl, replays_join R g' hp⟩), h5⟩
  rw [startReading, hsig]
  simp only [hd, hread, Option.map_some]
  have base : Sync L P R m.now rev rs g ({ list := g, pids := ps.filter m.alive, rev := some rev, lines := 0 + rs.length, pos := file.length, isOpen := true, pid := pid }, file) :=
    ⟨hf.mono hcn, rfl, hsub, rfl, rfl, rfl⟩
  by_cases hemp : (ps.filter m.alive).isEmpty = true
  · simp only [hemp, if_true]
    have hgr := renumber_good hf.good hsm
    obtain ⟨rev', rs', h1, h2, h3, h4⟩ := refreshFile_sync (L := L) (P := P) (R := R) hS (clock := m.now)
      (sh := { list := renumber g, pids := ps.filter m.alive, rev := some rev, lines := 0 + rs.length, pos := file.length, isOpen := true, pid := pid }) file hgr
      (renumber_ok hgr base.filed.entries) hsub (by intro r hr; cases hr; omega) rfl
    have := h4 rev rfl hrev
    refine ⟨_, renumber g, rev', rs', rfl, Or.inr ⟨?_, renumber_renumbered g⟩, h1, Or.inr (by omega), h3⟩
    intro q hq
    have := hsub.1 q hq
    rw [List.isEmpty_iff] at hemp
    rw [hemp] at this
    simp at this
  · simp only [hemp]
    obtain ⟨rev', rs', h1, h2, h3⟩ := base.maybeRefreshed hS hrev ha
    exact ⟨_, g, rev', rs', rfl, Or.inl rfl, h1, h2, h3⟩

/-- A shell ends. -/
theorem finalize_outcome {L : Libc} (hL : LibcOk L) {P : Params} {R : Nat → Prop} (hS : Sane P) (hP : P.max < word) {clock rev : Nat} {rs : List Rec} {g : List Entry}
    {x : Shell × List Str} (hf : Filed L P R clock rev rs g x.2) (hv : View L P R rev rs g x.1) (hR : R x.1.pid) {m : Moment} (hcn : clock ≤ m.now) (hn : m.now < word)
    (hrev : rev < L.longMax) (ha : ∀ q, R q → m.alive q = true) :
    ∃ y rev' rs', finalize L P m x = some y ∧ Filed L P (fun q => q ≠ x.1.pid ∧ R q) m.now rev' rs' g y.2 ∧
      Ext L P R (fun q => q ≠ x.1.pid ∧ R q) g g rev rs rev' rs' := by
  obtain ⟨y, hy, ⟨rev', rs', hs, he, hp⟩, _⟩ := update_result hL hS hP hf hv hR hcn hn hrev ha true
  have hok : 0 < x.1.pid ∧ x.1.pid ≤ L.longMax := by
    obtain ⟨ps, _, h2⟩ := hf.replays
    exact h2.2 _ (h2.1 _ hR)
  refine ⟨(closeFile (writeLine ('p' :: '-' :: numeral 10 y.1.pid) y).1, (writeLine ('p' :: '-' :: numeral 10 y.1.pid) y).2), rev', rs' ++ [.leave x.1.pid], ?_, ?_,
    he.trans (Or.inl ⟨rfl, _, rfl, replays_leave R g x.1.pid⟩)⟩
  · rw [finalize, if_pos hv.isOpen]
    simp only [hy, Option.bind_eq_bind, Option.bind_some, hs.isOpen, if_true]
  · have := hs.filed.write (ts := [.leave x.1.pid]) (by simpa [Rec.Ok] using hok) (replays_leave R g x.1.pid) hs.filed.good hs.filed.entries
    simp only [writeLine, hp]
    exact this

end Yash.History
