import Verif.History.Shared
/-!
# C63: any number of shells, one after another
-/
set_option autoImplicit false

namespace Yash.History

open Yash.Spec.History

/-- The clock does not go back, `process_exists` is true of shells that are running, and the revision of the file can be incremented. -/
structure Timely (L : Libc) (w : World) (m : Moment) : Prop where
  clock : w.clock ≤ m.now
  now : m.now < word
  alive : ∀ q, (w.shells q).isSome = true → m.alive q = true
  rev : ∀ r, readSignature L w.file = some r → r < L.longMax

/-- Events that are possible: the processes of running shells are different, and commands fit into the lines of the file. -/
def Allowed (L : Libc) (w : World) : Event → Prop
  | .run _ m c => Timely L w m ∧ Short L c
  | .join pid m => Timely L w m ∧ w.shells pid = none ∧ 0 < pid ∧ pid ≤ L.longMax
  | .leave _ m => Timely L w m
  | .crash _ => True

def AllowedAll (L : Libc) (P : Params) (intMax : Nat) : List Event → World → Prop
  | [], _ => True
  | e :: es, w => Allowed L w e ∧ ∀ w', step L P intMax e w = some w' → AllowedAll L P intMax es w'

/-- The first shell is started, with any file that can be read. -/
def Start (L : Libc) (P : Params) (w : World) (g : List Entry) : Prop :=
  ∃ pid m file y, initHistory L P m pid file = some y ∧ (∀ q, m.alive q = false) ∧ m.now < word ∧ 0 < pid ∧ pid ≤ L.longMax ∧
    (∀ e ∈ y.1.list, e.value.length + 34 < L.lineMax ∧ '\n' ∉ e.value) ∧
    w = { file := y.2, shells := fun q => if q = pid then some y.1 else none, clock := m.now } ∧ g = y.1.list

/-- The shells that are running. -/
def World.running (w : World) (q : Nat) : Bool := (w.shells q).isSome

/-- The settings. -/
structure Settings (P : Params) (intMax : Nat) : Prop where
  sane : Sane P
  word : P.max < word
  size : P.size ≤ P.max
  int : P.size ≤ intMax

/-- What is true all the time. -/
def Inv (L : Libc) (P : Params) (w : World) (g : List Entry) : Prop :=
  ∃ rev rs, Filed L P (fun q => (w.shells q).isSome = true) w.clock rev rs g w.file ∧
    ∀ p sh, w.shells p = some sh → sh.pid = p ∧ View L P (fun q => (w.shells q).isSome = true) rev rs g sh

theorem set_isSome (w : World) (pid : Nat) (sh : Option Shell) (file : List Str) (clock q : Nat) :
    (((w.set pid sh file clock).shells q).isSome = true) ↔ ((q = pid ∧ sh.isSome = true) ∨ (q ≠ pid ∧ (w.shells q).isSome = true)) := by
  simp only [World.set]
  split
  · rename_i h; simp [h]
  · rename_i h; simp [h]

theorem set_running {w : World} {pid : Nat} {sh : Option Shell} {file : List Str} {clock : Nat} :
    (w.set pid sh file clock).running = fun q => if q = pid then sh.isSome else w.running q := by
  funext q
  simp only [World.running, World.set]
  split <;> rfl

/-- An event does to the shared history what it should. -/
theorem step_inv {L : Libc} (hL : LibcOk L) {P : Params} {intMax : Nat} (hP : Settings P intMax) {w w' : World} {g : List Entry} (h : Inv L P w g) {e : Event} (ha : Allowed L w e)
    (hw : step L P intMax e w = some w') : ∃ g', Happens P L.graph L.blank e (g, w.running) (g', w'.running) ∧ Inv L P w' g' := by
  obtain ⟨rev, rs, hf, hv⟩ := h
  have hsig : readSignature L w.file = some rev := by rw [hf.file, readSignature_fileOf hL hf.revle]
  cases e with
  | run pid m c =>
    obtain ⟨ht, hc⟩ := ha
    obtain ⟨sh, hsh, hw⟩ := Option.bind_eq_some_iff.mp hw
    obtain ⟨y, hy, hw⟩ := Option.bind_eq_some_iff.mp hw
    cases hw
    obtain ⟨hpid, hview⟩ := hv pid sh hsh
    have hR : (w.shells sh.pid).isSome = true := by rw [hpid, hsh]; rfl
    obtain ⟨g', he, rev', rs', h1, h2, h3, h4⟩ := (perform_outcome hL hP.sane hP.word hP.int (x := (sh, w.file)) hf hview hR ht.clock ht.now (ht.rev _ hsig) ht.alive hc).1 y hy
    have hrun : (w.set pid (some y.1) y.2 m.now).running = w.running := by
      rw [set_running]
      funext q
      split
      · rename_i hq; subst hq; simp [World.running, hsh]
      · rfl
    have hiff : (fun q => ((w.set pid (some y.1) y.2 m.now).shells q).isSome = true) = fun q => (w.shells q).isSome = true := by
      funext q
      have := congrFun hrun q
      simp only [World.running] at this
      rw [this]
    refine ⟨g', ?_, rev', rs', ?_, ?_⟩
    · rw [hrun]
      exact .run (by simp [World.running, hsh]) he
    · rw [hiff]; exact h1
    · intro p sh' hp
      rw [hiff]
      simp only [World.set] at hp
      split at hp
      · rename_i hq
        cases hp
        exact ⟨by rw [h4, hpid, hq], h2⟩
      · obtain ⟨h5, h6⟩ := hv p sh' hp
        exact ⟨h5, h6.ext h3⟩
  | join pid m =>
    obtain ⟨ht, hnone, hpid⟩ := ha
    obtain ⟨y, hy, hw⟩ := Option.bind_eq_some_iff.mp hw
    cases hw
    obtain ⟨y', g', hy', hg', rev', rs', h1, h2, h3, h4⟩ := init_outcome hL hP.sane hP.word hP.size hf ht.clock ht.now (ht.rev _ hsig) ht.alive hpid
    rw [hy] at hy'
    cases hy'
    have hiff : (fun q => ((w.set pid (some y.1) y.2 m.now).shells q).isSome = true) = fun q => q = pid ∨ (w.shells q).isSome = true := by
      funext q
      rw [eq_iff_iff, set_isSome]
      by_cases hq : q = pid <;> simp [hq]
    refine ⟨g', ?_, rev', rs', ?_, ?_⟩
    · rw [set_running]
      refine .join (by simp [World.running, hnone]) ?_
      rcases hg' with rfl | ⟨hg1, hg2⟩
      · exact Or.inl rfl
      · refine Or.inr ⟨fun q => ?_, hg2⟩
        have := hg1 q
        simpa [World.running] using this
    · rw [hiff]; exact h1
    · intro p sh' hp
      rw [hiff]
      simp only [World.set] at hp
      split at hp
      · rename_i hq
        cases hp
        exact ⟨by rw [h4, hq], h2⟩
      · obtain ⟨h5, h6⟩ := hv p sh' hp
        exact ⟨h5, h6.ext h3⟩
  | leave pid m =>
    have ht : Timely L w m := ha
    obtain ⟨sh, hsh, hw⟩ := Option.bind_eq_some_iff.mp hw
    obtain ⟨y, hy, hw⟩ := Option.bind_eq_some_iff.mp hw
    cases hw
    obtain ⟨hpid, hview⟩ := hv pid sh hsh
    have hR : (w.shells sh.pid).isSome = true := by rw [hpid, hsh]; rfl
    obtain ⟨y', rev', rs', hy', h1, h3⟩ := finalize_outcome hL hP.sane hP.word (x := (sh, w.file)) hf hview hR ht.clock ht.now (ht.rev _ hsig) ht.alive
    rw [hy] at hy'
    cases hy'
    simp only [hpid] at h1 h3
    have hiff : (fun q => ((w.set pid none y.2 m.now).shells q).isSome = true) = fun q => q ≠ pid ∧ (w.shells q).isSome = true := by
      funext q
      rw [eq_iff_iff, set_isSome]
      simp
    refine ⟨g, ?_, rev', rs', ?_, ?_⟩
    · rw [set_running]
      exact .leave (by simp [World.running, hsh])
    · rw [hiff]; exact h1
    · intro p sh' hp
      rw [hiff]
      simp only [World.set] at hp
      split at hp
      · cases hp
      · obtain ⟨h5, h6⟩ := hv p sh' hp
        exact ⟨h5, h6.ext h3⟩
  | crash pid =>
    cases hw
    have hiff : (fun q => ((w.set pid none w.file w.clock).shells q).isSome = true) = fun q => q ≠ pid ∧ (w.shells q).isSome = true := by
      funext q
      rw [eq_iff_iff, set_isSome]
      simp
    have hpids : ∀ qs, Pids L (fun q => (w.shells q).isSome = true) qs → Pids L (fun q => q ≠ pid ∧ (w.shells q).isSome = true) qs := fun qs h => ⟨fun q hq => h.1 q hq.2, h.2⟩
    refine ⟨g, ?_, rev, rs, ?_, ?_⟩
    · rw [set_running]
      exact .crash
    · rw [hiff]
      obtain ⟨ps, p1, p2⟩ := hf.replays
      exact ⟨hf.file, hf.revle, hf.ok, ⟨ps, p1, hpids _ p2⟩, hf.good, hf.entries⟩
    · intro p sh' hp
      rw [hiff]
      simp only [World.set] at hp
      split at hp
      · cases hp
      · obtain ⟨h5, h6⟩ := hv p sh' hp
        exact ⟨h5, h6.ext (Or.inl ⟨rfl, [], by simp, fun qs hq => ⟨qs, rfl, hpids _ hq⟩⟩)⟩

theorem steps_inv {L : Libc} (hL : LibcOk L) {P : Params} {intMax : Nat} (hP : Settings P intMax) (es : List Event) {w w' : World} {g : List Entry} (h : Inv L P w g)
    (ha : AllowedAll L P intMax es w) (hw : steps L P intMax es w = some w') : ∃ g', Sequence P L.graph L.blank es (g, w.running) (g', w'.running) ∧ Inv L P w' g' := by
  induction es generalizing w g with
  | nil => cases hw; exact ⟨g, .nil _, h⟩
  | cons e es ih =>
    obtain ⟨w1, h1, h2⟩ := Option.bind_eq_some_iff.mp hw
    obtain ⟨g1, hh, hi⟩ := step_inv hL hP h ha.1 h1
    obtain ⟨g2, hs, hi2⟩ := ih hi (ha.2 w1 h1) h2
    exact ⟨g2, .cons hh hs, hi2⟩

/-! ## The start -/

/-- Times are not in the future. -/
def Past (now : Nat) (l : List Entry) : Prop := ∀ e ∈ l, ∀ t, e.time = some t → t ≤ now

theorem newEntry_past {P : Params} {now n : Nat} {time : Option Nat} {value : Str} {l l' : List Entry} (h : Past now l) (ht : ∀ t, time = some t → t ≤ now)
    (he : newEntry P n time value l = some l') : Past now l' := by
  have hmr : ∀ l : List Entry, (makeRoom P n l).Sublist l := by
    intro l
    induction l with
    | nil => simp [makeRoom]
    | cons x l ih =>
      rw [makeRoom]
      split
      · exact ih.trans (List.sublist_cons_self _ _)
      · exact List.Sublist.refl _
  simp only [newEntry] at he
  (repeat' split at he) <;> first
    | (cases he; done)
    | (obtain rfl := Option.some.inj he
       intro e he
       rcases List.mem_append.mp he with he | he
       · exact h e ((hmr l).subset he)
       · rw [List.mem_singleton.mp he]; exact ht)

theorem parseEntry_past {L : Libc} {P : Params} {now : Nat} {line : Str} {l l' : List Entry} (h : Past now l) (he : parseEntry L P now line l = some l') : Past now l' := by
  unfold parseEntry at he
  (repeat' split at he) <;> first
    | (cases he; exact h)
    | (refine newEntry_past h ?_ he; simp_all; done)
    | (refine newEntry_past h ?_ he; intro t ht; simp_all; (repeat' split at *) <;> simp_all <;> omega)

theorem parseRemoved_past {L : Libc} {P : Params} {now : Nat} {s : Str} {l l' : List Entry} (h : Past now l) (he : parseRemoved L P s l = some l') : Past now l' := by
  have her : ∀ i, Past now (l.eraseIdx i) := fun i e hm => h e ((List.eraseIdx_sublist l i).subset hm)
  unfold parseRemoved at he
  split at he
  · cases he; exact h
  · split at he
    · cases he; exact h
    · split at he
      · cases he; exact h
      · obtain ⟨r, _, he⟩ := Option.bind_eq_some_iff.mp he
        split at he
        · cases he
          split
          · exact her _
          · exact h
        · split at he
          · cases he
          · cases he; exact h

theorem readLine_past {L : Libc} {P : Params} {now : Nat} {line : Str} {sh sh' : Shell} (h : Past now sh.list) (he : readLine L P now line sh = some sh') :
    Past now sh'.list ∧ sh'.rev = sh.rev ∧ sh'.isOpen = sh.isOpen ∧ sh'.pid = sh.pid := by
  unfold readLine at he
  simp only at he
  split at he
  · cases he; exact ⟨h, rfl, rfl, rfl⟩
  · split at he
    · obtain ⟨l, hl, rfl⟩ := Option.map_eq_some_iff.mp he
      exact ⟨parseEntry_past h hl, rfl, rfl, rfl⟩
    · split at he
      · cases he
        exact ⟨fun e hm => h e ((List.dropLast_sublist _).subset hm), rfl, rfl, rfl⟩
      · split at he
        · obtain ⟨l, hl, rfl⟩ := Option.map_eq_some_iff.mp he
          exact ⟨parseRemoved_past h hl, rfl, rfl, rfl⟩
        · split at he <;> (cases he; exact ⟨h, rfl, rfl, rfl⟩)

theorem readLines_past {L : Libc} {P : Params} {now : Nat} (file : List Str) {sh sh' : Shell} (h : Past now sh.list) (he : readLines L P now file sh = some sh') :
    Past now sh'.list ∧ sh'.rev = sh.rev ∧ sh'.isOpen = sh.isOpen ∧ sh'.pid = sh.pid := by
  induction file generalizing sh with
  | nil => cases he; exact ⟨h, rfl, rfl, rfl⟩
  | cons line file ih =>
    rw [readLines] at he
    split at he
    · exact ih h he
    · obtain ⟨s, hs, he⟩ := Option.bind_eq_some_iff.mp he
      obtain ⟨a1, a2, a3, a4⟩ := readLine_past h hs
      obtain ⟨b1, b2, b3, b4⟩ := ih a1 he
      exact ⟨b1, by rw [b2, a2], by rw [b3, a3], by rw [b4, a4]⟩

theorem readRaw_past {L : Libc} {P : Params} {now : Nat} (file : List Str) {l l' : List Entry} (h : Past now l) (he : readRaw L P file l = some l') : Past now l' := by
  induction file generalizing l with
  | nil => cases he; exact h
  | cons line file ih =>
    rw [readRaw] at he
    split at he
    · exact ih h he
    · obtain ⟨s, hs, he⟩ := Option.bind_eq_some_iff.mp he
      exact ih (newEntry_past h (by simp) hs) he

theorem renumber_past {now : Nat} {l : List Entry} (h : Past now l) : Past now (renumber l) := by
  intro e he
  simp only [renumber, List.mem_map] at he
  obtain ⟨⟨f, i⟩, hf, rfl⟩ := he
  exact h f (List.fst_mem_of_mem_zipIdx hf)

theorem inv_single {L : Libc} {P : Params} {now rev pid : Nat} {rs : List Rec} {g : List Entry} {y : Shell × List Str} (h : Sync L P (fun q => q = pid ∨ False) now rev rs g y)
    (hp : y.1.pid = pid) : Inv L P { file := y.2, shells := fun q => if q = pid then some y.1 else none, clock := now } g := by
  have hiff : (fun q => (if q = pid then some y.1 else none).isSome = true) = fun q => q = pid ∨ False := by
    funext q
    rw [eq_iff_iff]
    by_cases hq : q = pid <;> simp [hq]
  refine ⟨rev, rs, ?_, ?_⟩
  · simp only [hiff]
    exact h.filed
  · intro p sh hs
    simp only [hiff]
    simp only at hs
    split at hs
    · rename_i hq
      cases hs
      exact ⟨by rw [hq, hp], h.view⟩
    · cases hs

theorem start_inv {L : Libc} (hL : LibcOk L) {P : Params} {intMax : Nat} (hP : Settings P intMax) {w : World} {g : List Entry} (h : Start L P w g) : Inv L P w g := by
  obtain ⟨pid, m, file, y, hy, ha, hn, hpid, hpl, hv, rfl, rfl⟩ := h
  obtain ⟨z, hz, rfl⟩ := Option.map_eq_some_iff.mp hy
  rw [writeLine_list] at hv ⊢
  suffices hs : ∃ rev rs, Sync L P (fun _ => False) m.now rev rs z.1.list z ∧ z.1.pid = pid by
    obtain ⟨rev, rs, hs, hzp⟩ := hs
    exact inv_single (joined hs ⟨hpid, hpl⟩) hzp
  have main : ∀ sh : Shell, Good P sh.list → Past m.now sh.list → (∀ e ∈ sh.list, e.value.length + 34 < L.lineMax ∧ '\n' ∉ e.value) → sh.pids = [] →
      (∀ r, sh.rev = some r → r ≤ L.longMax) → sh.isOpen = true → sh.pid = pid →
      ∃ rev rs, Sync L P (fun _ => False) m.now rev rs (refreshFile L (sh, file)).1.list (refreshFile L (sh, file)) ∧ (refreshFile L (sh, file)).1.pid = pid := by
    intro sh h1 h2 h3 h4 h5 h6 h7
    have hok : ∀ e ∈ sh.list, EntryOk L P m.now e := fun e he =>
      ⟨h1.2.1 e.number (List.mem_map_of_mem (f := fun e : Entry => e.number) he), h2 e he, (h3 e he).1, (h3 e he).2⟩
    obtain ⟨rev, rs, a, _, b, _⟩ := refreshFile_sync (L := L) (P := P) (R := fun _ => False) hP.sane (clock := m.now) (sh := sh) file h1 hok ⟨by simp, by simp [h4]⟩ h5 h6
    rw [refreshFile_list]
    exact ⟨rev, rs, a, by rw [b, h7]⟩
  rw [startReading] at hz
  split at hz
  · obtain ⟨l, hl, rfl⟩ := Option.map_eq_some_iff.mp hz
    rw [refreshFile_list] at hv
    exact main { pid := pid, isOpen := true, list := l } (readRaw_good hP.sane file (good_nil P) hl) (readRaw_past file (by simp [Past]) hl) hv rfl (by simp) rfl rfl
  · rename_i rev hsig
    obtain ⟨sh, hl, rfl⟩ := Option.map_eq_some_iff.mp hz
    have hrl : rev ≤ L.longMax := by
      simp only [readSignature] at hsig
      split at hsig
      · cases hsig
      · split at hsig
        · split at hsig
          · exact hL.long_le _ _ hsig
          · cases hsig
        · cases hsig
    obtain ⟨a1, a2, a3, a4⟩ := readLines_past (file.drop 1) (now := m.now) (by simp [Past]) hl
    have hg := readLines_good hP.sane (file.drop 1) (good_nil P) hl
    have hemp : sh.pids.filter m.alive = [] := by
      rw [List.filter_eq_nil_iff]
      intro q _
      simp [ha]
    simp only [hemp, List.isEmpty_nil, if_true] at hv ⊢
    rw [refreshFile_list] at hv
    refine main _ (renumber_good hg hP.size) (renumber_past a1) hv rfl ?_ ?_ ?_
    · intro r hr
      simp only [a2, Option.some.injEq] at hr
      omega
    · simp only [a3]
    · simp only [a4]

/-! ## C63 -/

/-- **C63.** Shells that share a history file have the same history: there is a history, changed by one event after another as if there were only one shell, and whenever any
of the shells uses the history it gets exactly this one. -/
theorem history_shared {L : Libc} (hL : LibcOk L) {P : Params} {intMax : Nat} (hP : Settings P intMax) {w0 : World} {g0 : List Entry} (h0 : Start L P w0 g0) {es : List Event} {w : World}
    (ha : AllowedAll L P intMax es w0) (hw : steps L P intMax es w0 = some w) :
    ∃ g, Sequence P L.graph L.blank es (g0, w0.running) (g, w.running) ∧ Good P g ∧
      ∀ pid sh, w.shells pid = some sh → ∀ m, Timely L w m → ∃ sh', perform L P intMax m .use (sh, w.file) = some (sh', w.file) ∧ sh'.list = g := by
  obtain ⟨g, hs, rev, rs, hf, hv⟩ := steps_inv hL hP es (start_inv hL hP h0) ha hw
  refine ⟨g, hs, hf.good, ?_⟩
  intro pid sh hsh m ht
  have hsig : readSignature L w.file = some rev := by rw [hf.file, readSignature_fileOf hL hf.revle]
  obtain ⟨hpid, hview⟩ := hv pid sh hsh
  have hR : (w.shells sh.pid).isSome = true := by rw [hpid, hsh]; rfl
  obtain ⟨y, hy, _, hk⟩ := update_result hL hP.sane hP.word (x := (sh, w.file)) hf hview hR ht.clock ht.now (ht.rev _ hsig) ht.alive false
  obtain ⟨h1, h2⟩ := hk rfl
  refine ⟨y.1, ?_, h2.list⟩
  rw [perform, hy]
  obtain ⟨y1, y2⟩ := y
  simp only at h1
  rw [h1]

/-- **C63.** No event fails, unless it looks for a number that is beyond the history. -/
theorem history_defined {L : Libc} (hL : LibcOk L) {P : Params} {intMax : Nat} (hP : Settings P intMax) {w0 : World} {g0 : List Entry} (h0 : Start L P w0 g0) {es : List Event} {w : World}
    (ha : AllowedAll L P intMax es w0) (hw : steps L P intMax es w0 = some w) :
    ∃ g, Sequence P L.graph L.blank es (g0, w0.running) (g, w.running) ∧ ∀ e, Allowed L w e →
      (∀ pid m c, e = .run pid m c → w.running pid = true ∧ Findable g c) → (∀ pid m, e = .leave pid m → w.running pid = true) → ∃ w', step L P intMax e w = some w' := by
  obtain ⟨g, hs, rev, rs, hf, hv⟩ := steps_inv hL hP es (start_inv hL hP h0) ha hw
  have hsig : readSignature L w.file = some rev := by rw [hf.file, readSignature_fileOf hL hf.revle]
  refine ⟨g, hs, ?_⟩
  intro e hae hrun hleave
  cases e with
  | run pid m c =>
    obtain ⟨ht, hc⟩ := hae
    obtain ⟨hr, hfi⟩ := hrun pid m c rfl
    obtain ⟨sh, hsh⟩ := Option.isSome_iff_exists.mp hr
    obtain ⟨hpid, hview⟩ := hv pid sh hsh
    have hR : (w.shells sh.pid).isSome = true := by rw [hpid, hsh]; rfl
    obtain ⟨y, hy⟩ := (perform_outcome hL hP.sane hP.word hP.int (x := (sh, w.file)) hf hview hR ht.clock ht.now (ht.rev _ hsig) ht.alive hc).2 hfi
    exact ⟨_, by simp only [step, hsh, hy, Option.bind_eq_bind, Option.bind_some]; rfl⟩
  | join pid m =>
    obtain ⟨ht, _, hpid⟩ := hae
    obtain ⟨y, _, hy, _⟩ := init_outcome hL hP.sane hP.word hP.size hf ht.clock ht.now (ht.rev _ hsig) ht.alive hpid
    exact ⟨_, by simp only [step, hy, Option.bind_eq_bind, Option.bind_some]; rfl⟩
  | leave pid m =>
    have ht : Timely L w m := hae
    obtain ⟨sh, hsh⟩ := Option.isSome_iff_exists.mp (hleave pid m rfl)
    obtain ⟨hpid, hview⟩ := hv pid sh hsh
    have hR : (w.shells sh.pid).isSome = true := by rw [hpid, hsh]; rfl
    obtain ⟨y, _, _, hy, _⟩ := finalize_outcome hL hP.sane hP.word (x := (sh, w.file)) hf hview hR ht.clock ht.now (ht.rev _ hsig) ht.alive
    exact ⟨_, by simp only [step, hsh, hy, Option.bind_eq_bind, Option.bind_some]; rfl⟩
  | crash pid => exact ⟨_, rfl⟩

/-- **C63.** What is written to the file are lines: none of them contains a newline. -/
theorem file_lines {L : Libc} (hL : LibcOk L) {P : Params} {intMax : Nat} (hP : Settings P intMax) {w0 : World} {g0 : List Entry} (h0 : Start L P w0 g0) {es : List Event} {w : World}
    (ha : AllowedAll L P intMax es w0) (hw : steps L P intMax es w0 = some w) : ∀ line ∈ w.file, '\n' ∉ line := by
  obtain ⟨g, _, rev, rs, hf, _⟩ := steps_inv hL hP es (start_inv hL hP h0) ha hw
  intro line hl
  rw [hf.file, fileOf] at hl
  rcases List.mem_cons.mp hl with rfl | hl
  · intro hm
    rcases List.mem_append.mp hm with hm | hm
    · exact absurd hm (by decide)
    · exact numeral_clean (base := 10) (by decide) (by decide) rev hm
  · obtain ⟨r, hr, rfl⟩ := List.mem_map.mp hl
    exact text_clean (hf.ok r hr)

end Yash.History
