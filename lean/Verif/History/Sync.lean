import Verif.History.Records
/-!
# A shell and the history file
-/
set_option autoImplicit false

namespace Yash.History

open Yash.Spec.History

/-- A file with a revision and lines. -/
def fileOf (rev : Nat) (rs : List Rec) : List Str := (signaturePrefix ++ numeral 10 rev) :: rs.map Rec.text

theorem fileOf_length (rev : Nat) (rs : List Rec) : (fileOf rev rs).length = rs.length + 1 := by simp [fileOf]

theorem fileOf_append (rev : Nat) (rs ts : List Rec) : fileOf rev rs ++ ts.map Rec.text = fileOf rev (rs ++ ts) := by simp [fileOf]

theorem readSignature_fileOf {L : Libc} (hL : LibcOk L) {rev : Nat} (hr : rev ≤ L.longMax) (rs : List Rec) : readSignature L (fileOf rev rs) = some rev := by
  have hlen : (signaturePrefix ++ numeral 10 rev).length < L.lineMax := by
    have h1 := numeral_length (base := 10) (by decide) (n := rev) (k := 20) (by decide) (Nat.lt_of_le_of_lt hr hL.longMax)
    have h2 : signaturePrefix.length = 21 := by decide
    have := hL.lineMax
    rw [List.length_append]
    omega
  have hs := hL.skipped _ hlen
  obtain ⟨d, rest, hd, hnum⟩ := numeral_head (base := 10) (by decide) rev
  have hp : signaturePrefix.isPrefixOf (signaturePrefix ++ numeral 10 rev) = true := by simp
  have hdr : (signaturePrefix ++ numeral 10 rev).drop signaturePrefix.length = numeral 10 rev := List.drop_left
  have hdig : ((numeral 10 rev).head?.map L.digit).getD false = true := by rw [hnum]; simp [hL.digit d hd]
  rw [readSignature, fileOf, List.filter_cons_of_pos (by simp [hs])]
  simp only
  rw [if_pos hp, hdr, if_pos hdig, hL.long rev hr]

/-- Numbers of processes that include all the shells that are running. -/
def Pids (L : Libc) (R : Nat → Prop) (qs : List Nat) : Prop := (∀ q, R q → q ∈ qs) ∧ ∀ q ∈ qs, 0 < q ∧ q ≤ L.longMax

/-- The contents of the file and the history it stands for. -/
structure Filed (L : Libc) (P : Params) (R : Nat → Prop) (clock rev : Nat) (rs : List Rec) (g : List Entry) (file : List Str) : Prop where
  file : file = fileOf rev rs
  revle : rev ≤ L.longMax
  ok : ∀ r ∈ rs, r.Ok L P clock
  replays : ∃ ps, replay P rs ([], []) = some (g, ps) ∧ Pids L R ps
  good : Good P g
  entries : ∀ e ∈ g, EntryOk L P clock e

theorem Filed.mono {L : Libc} {P : Params} {R : Nat → Prop} {c c' rev : Nat} {rs : List Rec} {g : List Entry} {file : List Str} (h : Filed L P R c rev rs g file) (hc : c ≤ c') :
    Filed L P R c' rev rs g file :=
  ⟨h.file, h.revle, fun r hr => Rec.Ok.mono hc (h.ok r hr), h.replays, h.good, fun e he => EntryOk.mono hc (h.entries e he)⟩

/-- A shell that knows all the file. -/
structure Sync (L : Libc) (P : Params) (R : Nat → Prop) (clock rev : Nat) (rs : List Rec) (g : List Entry) (x : Shell × List Str) : Prop where
  filed : Filed L P R clock rev rs g x.2
  list : x.1.list = g
  pids : Pids L R x.1.pids
  rev : x.1.rev = some rev
  pos : x.1.pos = x.2.length
  isOpen : x.1.isOpen = true

/-- A shell that may know only the beginning of the file, or an earlier revision. -/
structure View (L : Libc) (P : Params) (R : Nat → Prop) (rev : Nat) (rs : List Rec) (g : List Entry) (sh : Shell) : Prop where
  isOpen : sh.isOpen = true
  known : ∃ r, sh.rev = some r ∧ r ≤ rev ∧ (r = rev → ∃ k, sh.pos = k + 1 ∧ k ≤ rs.length ∧ ∃ qs, replay P (rs.drop k) (sh.list, sh.pids) = some (g, qs) ∧ Pids L R qs)

theorem Sync.view {L : Libc} {P : Params} {R : Nat → Prop} {clock rev : Nat} {rs : List Rec} {g : List Entry} {x : Shell × List Str} (h : Sync L P R clock rev rs g x) :
    View L P R rev rs g x.1 := by
  refine ⟨h.isOpen, rev, h.rev, Nat.le_refl _, fun _ => ⟨rs.length, ?_, Nat.le_refl _, x.1.pids, ?_, h.pids⟩⟩
  · rw [h.pos, h.filed.file, fileOf_length]
  · rw [List.drop_length, h.list, replay]

/-- Lines that change the history and the set of the running shells. -/
def Replays (L : Libc) (P : Params) (R R' : Nat → Prop) (ts : List Rec) (g g' : List Entry) : Prop :=
  ∀ qs, Pids L R qs → ∃ qs', replay P ts (g, qs) = some (g', qs') ∧ Pids L R' qs'

theorem Replays.refl {L : Libc} {P : Params} (R : Nat → Prop) (g : List Entry) : Replays L P R R [] g g := fun qs h => ⟨qs, rfl, h⟩

theorem Replays.trans {L : Libc} {P : Params} {R1 R2 R3 : Nat → Prop} {s t : List Rec} {g1 g2 g3 : List Entry} (h1 : Replays L P R1 R2 s g1 g2) (h2 : Replays L P R2 R3 t g2 g3) :
    Replays L P R1 R3 (s ++ t) g1 g3 := by
  intro qs hq
  obtain ⟨qs1, e1, p1⟩ := h1 qs hq
  obtain ⟨qs2, e2, p2⟩ := h2 qs1 p1
  exact ⟨qs2, by rw [replay_append, e1, Option.bind_some, e2], p2⟩

/-- The file has been extended or rewritten. -/
def Ext (L : Libc) (P : Params) (R R' : Nat → Prop) (g g' : List Entry) (rev : Nat) (rs : List Rec) (rev' : Nat) (rs' : List Rec) : Prop :=
  (rev' = rev ∧ ∃ ts, rs' = rs ++ ts ∧ Replays L P R R' ts g g') ∨ rev < rev'

theorem Ext.refl {L : Libc} {P : Params} (R : Nat → Prop) (g : List Entry) (rev : Nat) (rs : List Rec) : Ext L P R R g g rev rs rev rs :=
  Or.inl ⟨rfl, [], by simp, Replays.refl R g⟩

theorem Ext.trans {L : Libc} {P : Params} {R1 R2 R3 : Nat → Prop} {g1 g2 g3 : List Entry} {r1 r2 r3 : Nat} {s1 s2 s3 : List Rec}
    (h1 : Ext L P R1 R2 g1 g2 r1 s1 r2 s2) (h2 : Ext L P R2 R3 g2 g3 r2 s2 r3 s3) : Ext L P R1 R3 g1 g3 r1 s1 r3 s3 := by
  rcases h1 with ⟨rfl, t1, rfl, e1⟩ | h1
  · rcases h2 with ⟨rfl, t2, rfl, e2⟩ | h2
    · exact Or.inl ⟨rfl, t1 ++ t2, by simp, e1.trans e2⟩
    · exact Or.inr h2
  · rcases h2 with ⟨rfl, t2, rfl, _⟩ | h2
    · exact Or.inr h1
    · exact Or.inr (by omega)

/-- What another shell knows stays true. -/
theorem View.ext {L : Libc} {P : Params} {R R' : Nat → Prop} {g g' : List Entry} {rev rev' : Nat} {rs rs' : List Rec} {sh : Shell} (h : View L P R rev rs g sh)
    (he : Ext L P R R' g g' rev rs rev' rs') : View L P R' rev' rs' g' sh := by
  obtain ⟨r, hr, hle, hk⟩ := h.known
  refine ⟨h.isOpen, r, hr, ?_, ?_⟩
  · rcases he with ⟨rfl, _⟩ | he <;> omega
  · intro heq
    rcases he with ⟨rfl, ts, rfl, hts⟩ | he
    · obtain ⟨k, hpos, hkl, qs, h1, h2⟩ := hk heq
      obtain ⟨qs', h3, h4⟩ := hts qs h2
      refine ⟨k, hpos, by simp; omega, qs', ?_, h4⟩
      rw [List.drop_append_of_le_length hkl, replay_append, h1, Option.bind_some, h3]
    · omega

/-- What `update_history` reads. -/
theorem reread_sync {L : Libc} (hL : LibcOk L) {P : Params} {R : Nat → Prop} (hP : P.max < word) {clock now rev : Nat} {rs : List Rec} {g : List Entry} {file : List Str}
    (hf : Filed L P R clock rev rs g file) {sh : Shell} (hv : View L P R rev rs g sh) (hR : R sh.pid) (hcn : clock ≤ now) (hn : now < word) :
    ∃ sh', reread L P now rev file sh = some sh' ∧ Sync L P R now rev rs g ({ sh' with pos := file.length }, file) ∧ sh'.pid = sh.pid := by
  obtain ⟨r, hr, hle, hk⟩ := hv.known
  by_cases heq : r = rev
  · obtain ⟨k, hpos, hkl, qs, h1, h2⟩ := hk heq
    have hd : file.drop sh.pos = (rs.drop k).map Rec.text := by
      rw [hf.file, hpos, fileOf, List.drop_succ_cons, List.map_drop]
    refine ⟨{ sh with list := g, pids := qs, lines := sh.lines + (rs.drop k).length }, ?_, ⟨hf.mono hcn, rfl, h2, ?_, rfl, hv.isOpen⟩, rfl⟩
    · rw [reread, if_pos (by rw [hr, heq]), hd, readLines_texts hL hP hcn hn _ (fun r hr => hf.ok r (List.mem_of_mem_drop hr)), h1]
      rfl
    · simp only [hr, heq]
  · obtain ⟨ps, hp1, hp2⟩ := hf.replays
    obtain ⟨qs', hq1, hq2, hq3⟩ := replay_pids hp1 (qs := [sh.pid]) sh.pid (by simp) (by simp)
    have hd : file.drop 1 = rs.map Rec.text := by rw [hf.file, fileOf]; rfl
    refine ⟨{ sh with list := g, pids := qs', rev := some rev, lines := 0 + rs.length }, ?_, ⟨hf.mono hcn, rfl, ⟨fun q hq => hq2 q (hp2.1 q hq), ?_⟩, rfl, rfl, hv.isOpen⟩, rfl⟩
    · rw [reread, if_neg (by rw [hr]; intro hc; exact heq (Option.some.inj hc)), hd, readLines_texts hL hP hcn hn _ hf.ok, hq1]
      rfl
    · intro q hq
      rcases hq3 q hq with h | rfl
      · exact hp2.2 q h
      · exact hp2.2 _ (hp2.1 _ hR)

/-! ## Writing -/

/-- What writing lines does to a shell and the file. -/
structure Wrote (ts : List Rec) (x y : Shell × List Str) : Prop where
  file : y.2 = x.2 ++ ts.map Rec.text
  list : y.1.list = x.1.list
  pids : y.1.pids = x.1.pids
  rev : y.1.rev = x.1.rev
  isOpen : y.1.isOpen = x.1.isOpen
  pid : y.1.pid = x.1.pid
  pos : x.1.pos = x.2.length → y.1.pos = y.2.length

theorem Wrote.refl (x : Shell × List Str) : Wrote [] x x := ⟨by simp, rfl, rfl, rfl, rfl, rfl, id⟩

theorem Wrote.trans {s t : List Rec} {x y z : Shell × List Str} (h1 : Wrote s x y) (h2 : Wrote t y z) : Wrote (s ++ t) x z :=
  ⟨by rw [h2.file, h1.file]; simp, by rw [h2.list, h1.list], by rw [h2.pids, h1.pids], by rw [h2.rev, h1.rev], by rw [h2.isOpen, h1.isOpen], by rw [h2.pid, h1.pid],
    fun h => h2.pos (h1.pos h)⟩

theorem wrote_one (r : Rec) (x : Shell × List Str) : Wrote [r] x (writeLine r.text x) := ⟨rfl, rfl, rfl, rfl, rfl, rfl, fun _ => by simp [writeLine]⟩

theorem wrote_many {α : Type} (f : α → Rec) (as : List α) (x : Shell × List Str) : Wrote (as.map f) x (as.foldl (fun y a => writeLine (f a).text y) x) := by
  induction as generalizing x with
  | nil => exact Wrote.refl x
  | cons a as ih => exact Wrote.trans (wrote_one (f a) x) (ih _)

theorem writeEntry_short {L : Libc} {e : Entry} (h : e.value.length + 34 < L.lineMax) (x : Shell × List Str) : writeEntry L e x = writeLine (Rec.entry e).text x := by
  rw [writeEntry, if_neg (by omega)]; rfl

theorem wrote_entries {L : Libc} (es : List Entry) (h : ∀ e ∈ es, e.value.length + 34 < L.lineMax) (x : Shell × List Str) :
    Wrote (es.map Rec.entry) x (es.foldl (fun y e => writeEntry L e y) x) := by
  induction es generalizing x with
  | nil => exact Wrote.refl x
  | cons e es ih =>
    rw [List.foldl_cons, writeEntry_short (h e (by simp))]
    exact Wrote.trans (wrote_one (.entry e) x) (ih (fun e he => h e (by simp [he])) _)

/-- Lines that are written after the shell has changed its list. -/
theorem Filed.write {L : Libc} {P : Params} {R R' : Nat → Prop} {clock rev : Nat} {rs : List Rec} {g : List Entry} {file : List Str} (h : Filed L P R clock rev rs g file)
    {ts : List Rec} (hok : ∀ r ∈ ts, r.Ok L P clock) {g' : List Entry} (hr : Replays L P R R' ts g g') (hg : Good P g') (he : ∀ e ∈ g', EntryOk L P clock e) :
    Filed L P R' clock rev (rs ++ ts) g' (file ++ ts.map Rec.text) := by
  refine ⟨?_, h.revle, ?_, ?_, hg, he⟩
  · rw [h.file, fileOf_append]
  · intro r hr
    rcases List.mem_append.mp hr with hr | hr
    · exact h.ok r hr
    · exact hok r hr
  · obtain ⟨ps, h1, h2⟩ := h.replays
    obtain ⟨qs, h3, h4⟩ := hr ps h2
    exact ⟨qs, by rw [replay_append, h1, Option.bind_some, h3], h4⟩

/-- After the file has been rewritten it says what the shell knows. -/
theorem refreshFile_sync {L : Libc} {P : Params} {R : Nat → Prop} (hP : Sane P) {clock : Nat} {sh : Shell} (file : List Str) (hg : Good P sh.list)
    (he : ∀ e ∈ sh.list, EntryOk L P clock e) (hps : Pids L R sh.pids) (hrev : ∀ r, sh.rev = some r → r ≤ L.longMax) (ho : sh.isOpen = true) :
    ∃ rev rs, Sync L P R clock rev rs sh.list (refreshFile L (sh, file)) ∧ (refreshFile L (sh, file)).1.pids = sh.pids ∧ (refreshFile L (sh, file)).1.pid = sh.pid ∧
      (∀ r, sh.rev = some r → r < L.longMax → rev = r + 1) := by
  obtain ⟨rev, hs, hrl, hrn⟩ : ∃ rev, writeSignature L (sh, file) = ({ sh with rev := some rev, lines := 0, pos := 1 }, [signaturePrefix ++ numeral 10 rev]) ∧ rev ≤ L.longMax ∧
      (∀ r, sh.rev = some r → r < L.longMax → rev = r + 1) := by
    cases hr : sh.rev with
    | none => exact ⟨0, by simp only [writeSignature, hr], Nat.zero_le _, by simp⟩
    | some r =>
      have := hrev r hr
      by_cases hm : r = L.longMax
      · exact ⟨0, by simp only [writeSignature, hr, if_pos hm], Nat.zero_le _, by intro r' h; cases h; omega⟩
      · exact ⟨r + 1, by simp only [writeSignature, hr, if_neg hm], by omega, by intro r' h _; cases h; rfl⟩
  have w1 : Wrote (sh.pids.map Rec.join) (writeSignature L (sh, file)) (writePids (writeSignature L (sh, file))) := by
    have := wrote_many Rec.join (writeSignature L (sh, file)).1.pids (writeSignature L (sh, file))
    rw [hs] at this ⊢
    exact this
  have w2 : Wrote (sh.list.map Rec.entry) (writePids (writeSignature L (sh, file))) (refreshFile L (sh, file)) := wrote_entries sh.list (fun e h => (he e h).short) _
  have w := w1.trans w2
  obtain ⟨ps, hj1, hj2⟩ := replay_joins (P := P) sh.pids [] []
  have hmem : ∀ q, q ∈ ps ↔ q ∈ sh.pids := by intro q; rw [hj2]; simp
  refine ⟨rev, sh.pids.map Rec.join ++ sh.list.map Rec.entry, ⟨⟨?_, hrl, ?_, ⟨ps, ?_, ?_, ?_⟩, hg, he⟩, ?_, ?_, ?_, ?_, ?_⟩, ?_, ?_, hrn⟩
  · rw [w.file, hs]; simp [fileOf]
  · intro r hr
    rcases List.mem_append.mp hr with hr | hr
    · obtain ⟨p, hp, rfl⟩ := List.mem_map.mp hr
      exact hps.2 p hp
    · obtain ⟨e, h, rfl⟩ := List.mem_map.mp hr
      exact he e h
  · rw [replay_append, hj1, Option.bind_some, replay_entries hP sh.list [] (by simpa using hg)]
    simp
  · intro p hp
    exact (hmem p).mpr (hps.1 p hp)
  · intro p hp
    exact hps.2 p ((hmem p).mp hp)
  · rw [w.list, hs]
  · rw [w.pids, hs]; exact hps
  · rw [w.rev, hs]
  · exact w.pos (by rw [hs]; rfl)
  · rw [w.isOpen, hs]; exact ho
  · rw [w.pids, hs]
  · rw [w.pid, hs]

/-- The state after a command. -/
def Result (L : Libc) (P : Params) (R : Nat → Prop) (m : Moment) (g : List Entry) (rev : Nat) (rs : List Rec) (pid : Nat) (g' : List Entry) (y : Shell × List Str) : Prop :=
  ∃ rev' rs', Sync L P R m.now rev' rs' g' y ∧ Ext L P R R g g' rev rs rev' rs' ∧ y.1.pid = pid

theorem Pids.filter {L : Libc} {R : Nat → Prop} {qs : List Nat} (h : Pids L R qs) {alive : Nat → Bool} (ha : ∀ q, R q → alive q = true) : Pids L R (qs.filter alive) :=
  ⟨fun q hq => List.mem_filter.mpr ⟨h.1 q hq, ha q hq⟩, fun q hq => h.2 q (List.mem_filter.mp hq).1⟩

theorem Sync.refreshed {L : Libc} {P : Params} {R : Nat → Prop} (hP : Sane P) {m : Moment} {rev : Nat} {rs : List Rec} {g : List Entry} {x : Shell × List Str}
    (h : Sync L P R m.now rev rs g x) (hrev : rev < L.longMax) (ha : ∀ q, R q → m.alive q = true) :
    Result L P R m g rev rs x.1.pid g (refreshFile L ({ x.1 with pids := x.1.pids.filter m.alive }, x.2)) := by
  have hl := h.list
  subst hl
  obtain ⟨rev', rs', h1, h2, h3, h4⟩ := refreshFile_sync (L := L) (R := R) hP (clock := m.now) (sh := { x.1 with pids := x.1.pids.filter m.alive }) x.2
    h.filed.good h.filed.entries (h.pids.filter ha) (by intro r hr; rw [h.rev] at hr; cases hr; omega) h.isOpen
  have hr' := h4 rev h.rev hrev
  exact ⟨rev', rs', h1, Or.inr (by omega), h3⟩

theorem Sync.result {L : Libc} {P : Params} {R : Nat → Prop} {m : Moment} {rev : Nat} {rs : List Rec} {g : List Entry} {x : Shell × List Str}
    (h : Sync L P R m.now rev rs g x) : Result L P R m g rev rs x.1.pid g x := ⟨rev, rs, h, Ext.refl _ _ _ _, rfl⟩

theorem Sync.maybeRefreshed {L : Libc} {P : Params} {R : Nat → Prop} (hP : Sane P) {m : Moment} {rev : Nat} {rs : List Rec} {g : List Entry} {x : Shell × List Str}
    (h : Sync L P R m.now rev rs g x) (hrev : rev < L.longMax) (ha : ∀ q, R q → m.alive q = true) : Result L P R m g rev rs x.1.pid g (maybeRefresh L m x) := by
  rw [maybeRefresh]
  split
  · exact h.refreshed hP hrev ha
  · exact h.result

/-- `update_history` brings a shell up to date. -/
theorem update_result {L : Libc} (hL : LibcOk L) {P : Params} {R : Nat → Prop} (hS : Sane P) (hP : P.max < word) {clock rev : Nat} {rs : List Rec} {g : List Entry}
    {x : Shell × List Str} (hf : Filed L P R clock rev rs g x.2) (hv : View L P R rev rs g x.1) (hR : R x.1.pid) {m : Moment} (hcn : clock ≤ m.now) (hn : m.now < word)
    (hrev : rev < L.longMax) (ha : ∀ q, R q → m.alive q = true) (refresh : Bool) :
    ∃ y, updateHistory L P m refresh x = some y ∧ Result L P R m g rev rs x.1.pid g y ∧ (refresh = false → y.2 = x.2 ∧ Sync L P R m.now rev rs g y) := by
  obtain ⟨sh', hs, hsync, hpid⟩ := reread_sync hL hP hf hv hR hcn hn
  have hsig : readSignature L x.2 = some rev := by rw [hf.file, readSignature_fileOf hL hf.revle]
  rw [updateHistory, if_pos hv.isOpen, hsig]
  simp only [hs, Option.bind_eq_bind, Option.bind_some]
  refine ⟨_, rfl, ?_, ?_⟩
  · rw [← hpid]
    cases refresh with
    | false => exact hsync.result
    | true => exact hsync.maybeRefreshed hS hrev ha
  · rintro rfl
    exact ⟨rfl, hsync⟩

end Yash.History
