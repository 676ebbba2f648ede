import Verif.Input.Lemmas
/-!
# C65: reading a line takes the line and nothing else from the input
-/
set_option autoImplicit false

namespace Yash.Input

open Spec

variable {S : Type} {D : Decoder S}

/-- A call that uses the buffer of the `struct input_file_info_T`. -/
theorem plain_good {f : File} {info : Info S} (hc : Consistent f info) {sched : List Ev}
    (hne : NoError sched) {cs : List Char} {bytes rest : List Byte} {s' : S}
    (ht : Text D info.state bytes cs s') (hl : Line cs) (hu : unread f info = bytes ++ rest)
    (hr : cs.getLast? = some '\n' ∨ rest = []) :
    (∀ r, plain D f info sched = some r → Good f.data rest s' cs info.size r) ∧
    (bytes.length < reads sched → ∃ r, plain D f info sched = some r) := by
  obtain ⟨hle, hs, hlen, b, hb⟩ := hc
  unfold unread at hu
  by_cases hp : info.pending = []
  · rw [hp, List.nil_append] at hu
    have := fill_good (D := D) hs sched hne f.pos ⟨info.state, [], []⟩ cs bytes hle ht hl hu hr
      (fun _ => rfl)
    simpa [plain, hp] using this
  · rcases convert_line ht hl info.pending rest (f.data.drop f.pos) [] hu hr with
      ⟨p', e1, e2, e3, u, hu', e4⟩ | ⟨s2, p1, c1, c2, b2, e1, e2, e3, e4, e5, e6, e7⟩
    · have hplain : plain D f info sched = some (finish .eof f.pos ⟨s', p', [] ++ cs⟩) := by
        simp only [plain, if_neg hp, e1]
      refine ⟨fun r h => ?_, fun _ => ⟨_, hplain⟩⟩
      rw [hplain] at h
      cases h
      have h1 : info.pending.length = u.length + p'.length := by rw [e4]; simp
      have h2 : u.length ≠ 0 := fun h => hu' (List.eq_nil_of_length_eq_zero h)
      refine finish_good rfl (by simp) e2 hle ⟨b ++ u, by rw [hb, e4, List.append_assoc]⟩
        (fun h => ?_) ?_
      · exact List.eq_nil_of_length_eq_zero (by show p'.length = 0; omega)
      · show p'.length ≤ info.size; omega
    · have hplain : plain D f info sched =
          fill D f.data info.size f.pos sched ⟨s2, p1, [] ++ c1⟩ := by
        simp only [plain, if_neg hp, e1]
      obtain ⟨h1, h2⟩ := fill_good (D := D) hs sched hne f.pos ⟨s2, p1, [] ++ c1⟩ c2 b2 hle e4 e5 e3
        (hr.imp e7 id) e6
      rw [hplain]
      refine ⟨fun r h => ?_, fun h => h2 ?_⟩
      · have := h1 r h
        simpa [← e2] using this
      · have h3 := congrArg List.length e3
        have h4 := congrArg List.length hu
        simp only [List.length_append] at h3 h4
        omega

/-- Both ways of reading. -/
theorem readInput_good {bufsiz : Nat} (hbuf : 1 < bufsiz) {f : File} {info : Info S}
    (hc : Consistent f info) {sched : List Ev}
    (hne : NoError sched) {cs : List Char} {bytes rest : List Byte} {s' : S}
    (ht : Text D info.state bytes cs s') (hl : Line cs) (hu : unread f info = bytes ++ rest)
    (hr : cs.getLast? = some '\n' ∨ rest = []) :
    (∀ r, readInput D bufsiz f info sched = some r → Good f.data rest s' cs info.size r) ∧
    (bytes.length < reads sched → ∃ r, readInput D bufsiz f info sched = some r) := by
  by_cases hopt : (info.size = 1 && f.regular) = true
  · have hsize : info.size = 1 := by simp at hopt; exact hopt.1
    have hc' : Consistent f { info with size := bufsiz } := by
      obtain ⟨h1, h2, h3, h4⟩ := hc
      exact ⟨h1, by show 0 < bufsiz; omega, by show info.pending.length ≤ bufsiz; omega, h4⟩
    obtain ⟨h1, h2⟩ := plain_good (D := D) hc' hne ht hl hu hr
    rw [readInput, if_pos hopt]
    refine ⟨fun r h => ?_, fun h => ?_⟩
    · simp only [optimized] at h
      split at h
      · cases h
      · rename_i r0 hr0
        cases h
        have g := h1 r0 hr0
        obtain ⟨b, hb⟩ := g.before
        have hlen : b.length + r0.pending.length = r0.pos := by
          have := congrArg List.length hb
          have hle := g.le
          simp at this
          omega
        have hpos : (if r0.pending ≠ [] then rewind r0.pos r0.pending.length else r0.pos) =
            b.length := by
          split
          · rw [rewind, if_pos (by omega)]; omega
          · rename_i h
            simp at h
            rw [h] at hlen
            simpa using hlen.symm
        have hdata : f.data = b ++ r0.pending ++ f.data.drop r0.pos := by
          rw [← hb, List.take_append_drop]
        have hpos' : (b.length ≤ f.data.length) := by have := g.le; omega
        refine ⟨g.status, g.text, g.state, ?_, ?_, ?_, fun _ => rfl, by simp⟩
        · show [] ++ f.data.drop _ = rest
          rw [hpos, ← g.unread]
          conv => lhs; rw [hdata]
          simp
        · show _ ≤ _
          rw [hpos]; exact hpos'
        · exact ⟨f.data.take b.length, by simp [hpos]⟩
    · obtain ⟨r, hr⟩ := h2 h
      simp [optimized, hr]
  · rw [readInput, if_neg hopt]
    exact plain_good hc hne ht hl hu hr

/-- **C65.** Let the input that has not been read yet begin with a line: bytes that stand for
characters, none of which is a null character or a newline, and a newline.  Then a call that reads
a line gives just this line, and what has not been read afterwards is just the rest of the input.
So it is for every multibyte encoding, for regular files as well as for pipes and terminals,
however many bytes the system gives at a time and however often it interrupts, and with a buffer of
any size.  With the buffer of the standard input, which has one byte, the offset of the file is
then at the end of the line, so that other programs find the rest of the input. -/
theorem C65_line_read {bufsiz : Nat} (hbuf : 1 < bufsiz) {f : File} {info : Info S}
    (hc : Consistent f info) {sched : List Ev} (hne : NoError sched) {line : List Char}
    {bytes rest : List Byte} {s' : S} (ht : Text D info.state bytes (line ++ ['\n']) s')
    (hnl : '\n' ∉ line) (hnul : '\x00' ∉ line) (hu : unread f info = bytes ++ rest)
    {r : Result S} (h : readInput D bufsiz f info sched = some r) :
    r.status = .ok ∧ r.text = line ++ ['\n'] ∧ r.state = s' ∧
    unread (after f info r).1 (after f info r).2 = rest ∧
    Consistent (after f info r).1 (after f info r).2 ∧
    (info.size = 1 → f.data.drop r.pos = rest) := by
  have hl : Line (line ++ ['\n']) := by
    refine ⟨by simp [hnul], fun a b hab => ?_⟩
    rcases List.eq_nil_or_concat b with rfl | ⟨b', x, rfl⟩
    · rfl
    · exfalso
      rw [List.concat_eq_append, ← List.cons_append, ← List.append_assoc] at hab
      have := (List.append_inj' hab rfl).1
      exact hnl (by simp [this])
  have g := (readInput_good hbuf hc hne ht hl hu (.inl (by simp))).1 r h
  refine ⟨by simpa using g.status, g.text, g.state, g.unread, ⟨g.le, hc.2.1, g.length, g.before⟩,
    fun h1 => ?_⟩
  have := g.unread
  rwa [g.pending h1, List.nil_append] at this

/-- **C65.** Likewise if the input ends without a newline: the characters up to the end of the file
are read, and if there are none the call says so. -/
theorem C65_last_line_read {bufsiz : Nat} (hbuf : 1 < bufsiz) {f : File} {info : Info S}
    (hc : Consistent f info) {sched : List Ev} (hne : NoError sched) {line : List Char} {s' : S}
    (ht : Text D info.state (unread f info) line s') (hnl : '\n' ∉ line) (hnul : '\x00' ∉ line)
    {r : Result S} (h : readInput D bufsiz f info sched = some r) :
    (r.status = .ok ↔ line ≠ []) ∧ (r.status = .eof ↔ line = []) ∧ r.text = line ∧ r.state = s' ∧
    unread (after f info r).1 (after f info r).2 = [] ∧
    Consistent (after f info r).1 (after f info r).2 := by
  have hl : Line line := ⟨hnul, fun a b hab => absurd (by simp [hab]) hnl⟩
  have g := (readInput_good (rest := []) hbuf hc hne ht hl (by simp) (.inr rfl)).1 r h
  have hs := g.status
  refine ⟨?_, ?_, g.text, g.state, g.unread, ⟨g.le, hc.2.1, g.length, g.before⟩⟩
  · rw [hs]; by_cases h : line = [] <;> simp [h]
  · rw [hs]; by_cases h : line = [] <;> simp [h]

/-- **C65.** The call ends after finitely many successful reads: one more than the line has bytes
are enough. -/
theorem C65_returns {bufsiz : Nat} (hbuf : 1 < bufsiz) {f : File} {info : Info S}
    (hc : Consistent f info) {sched : List Ev} (hne : NoError sched) {line : List Char}
    {bytes rest : List Byte} {s' : S} (ht : Text D info.state bytes (line ++ ['\n']) s')
    (hnl : '\n' ∉ line) (hnul : '\x00' ∉ line) (hu : unread f info = bytes ++ rest)
    (hlong : bytes.length < reads sched) :
    ∃ r, readInput D bufsiz f info sched = some r := by
  have hl : Line (line ++ ['\n']) := by
    refine ⟨by simp [hnul], fun a b hab => ?_⟩
    rcases List.eq_nil_or_concat b with rfl | ⟨b', x, rfl⟩
    · rfl
    · exfalso
      rw [List.concat_eq_append, ← List.cons_append, ← List.append_assoc] at hab
      have := (List.append_inj' hab rfl).1
      exact hnl (by simp [this])
  exact (readInput_good hbuf hc hne ht hl hu (.inl (by simp))).2 hlong

/-- Characters one after the other are bytes one after the other. -/
theorem text_split {cs1 : List Char} : ∀ {s : S} {bytes : List Byte} {cs2 : List Char} {s' : S},
    Text D s bytes (cs1 ++ cs2) s' →
    ∃ b1 b2 s1, bytes = b1 ++ b2 ∧ Text D s b1 cs1 s1 ∧ Text D s1 b2 cs2 s' := by
  induction cs1 with
  | nil => intro s bytes cs2 s' h; exact ⟨[], bytes, s, rfl, .nil _, h⟩
  | cons c cs ih =>
    intro s bytes cs2 s' h
    cases h with
    | cons _ bs _ s1 bytes _ _ h1 h2 =>
      obtain ⟨b1, b2, s2, rfl, h3, h4⟩ := ih h2
      exact ⟨bs ++ b1, b2, s2, by simp, .cons _ _ _ _ _ _ _ h1 h3, h4⟩

/-- **C65.** Lines that follow one another in the input are read one after another, in order, each
exactly once. -/
theorem C65_lines_read {bufsiz : Nat} (hbuf : 1 < bufsiz) {rest : List Byte} :
    ∀ (lines : List (List Char)) (scheds : List (List Ev)) (f : File) (info : Info S)
      (bytes : List Byte) (s' : S), Consistent f info → scheds.length = lines.length →
      (∀ sched ∈ scheds, NoError sched) → (∀ l ∈ lines, '\n' ∉ l ∧ '\x00' ∉ l) →
      Text D info.state bytes (lines.flatMap (· ++ ['\n'])) s' →
      unread f info = bytes ++ rest →
      ∀ out f' info', readLines D bufsiz f info scheds = some (out, f', info') →
        out = lines.map (fun l => (.ok, l ++ ['\n'])) ∧ unread f' info' = rest ∧
        Consistent f' info' := by
  intro lines
  induction lines with
  | nil =>
    intro scheds f info bytes s' hc hlen _ _ ht hu out f' info' h
    cases scheds with
    | cons _ _ => simp at hlen
    | nil =>
      simp only [readLines] at h
      cases h
      simp only [List.flatMap_nil] at ht
      generalize hcs : ([] : List Char) = cs at ht
      cases ht with
      | cons => cases hcs
      | nil => exact ⟨rfl, by simpa using hu, hc⟩
  | cons l lines ih =>
    intro scheds f info bytes s' hc hlen hne hl ht hu out f' info' h
    cases scheds with
    | nil => simp at hlen
    | cons sched scheds =>
      simp only [readLines] at h
      split at h
      · cases h
      · rename_i r hr
        split at h
        · cases h
        · rename_i out1 w hw
          cases h
          rw [List.flatMap_cons] at ht
          obtain ⟨b1, b2, s1, rfl, h1, h2⟩ := text_split ht
          obtain ⟨e1, e2, e3, e4, e5, _⟩ := C65_line_read hbuf hc (hne _ (by simp)) h1
            (hl l (by simp)).1 (hl l (by simp)).2 (rest := b2 ++ rest)
            (by rw [hu, List.append_assoc]) hr
          subst e3
          obtain ⟨g1, g2, g3⟩ := ih scheds _ _ b2 s' e5 (by simpa using hlen)
            (fun x hx => hne x (by simp [hx])) (fun x hx => hl x (by simp [hx])) h2 e4 _ _ _ hw
          exact ⟨by simp [g1, e1, e2], g2, g3⟩

end Yash.Input
