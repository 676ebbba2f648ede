import Verif.Keys.Typed
import Verif.Edit.Props3
import Verif.Input.Utf8
/-!
# C81: typing in a line, examples, and what is lost
-/
set_option autoImplicit false

namespace Yash.Keys

open Spec
open Yash.Input (Byte Decoder mbrtowc)
open Yash.Input.Spec (OneChar Text)

/-! ## The editor of C74 to C78 -/

/-- The editor for which keys are read: `none` is a failed assertion of a command. The default commands of the modes are those of `le_keymap_init`
(lineedit/keymap.c:71, 103, 215, 326); `cmd_expect_verbatim` is left out. -/
def editor {T : Type} (base : Terminal T Unit Unit) (env : Edit.Env) (maps : Edit.Mode → Trie.Node Char Edit.Cmd) : Terminal T (Option Edit.St) Edit.Cmd where
  decoder := base.decoder
  initial := base.initial
  codes := base.codes
  interrupt := base.interrupt
  eof := base.eof
  kill := base.kill
  erase := base.erase
  convmeta := base.convmeta
  keymap s := match s with
    | some st => maps st.mode
    | none => Trie.create
  default s := match s with
    | some st =>
      match st.mode with
      | .viInsert => .selfInsert
      | .viCommand => .alert
      | .emacs => .selfInsert
      | .charExpect => .expectChar
    | none => .alert
  invoke cmd c s := s.bind (Edit.invoke env cmd c)
  editing s := match s with
    | some st => st.state == .editing
    | none => false
  verbatim _ := false
  unverbatim := id
  stop s := s.map fun st => { st with state := .error }

theorem insertChars_state (c : Char) : ∀ (n : Nat) (st : Edit.St), (Edit.insertChars c n st).state = st.state
  | 0, _ => rfl
  | n + 1, st => by
    rw [Edit.insertChars]
    split <;> rw [insertChars_state c n]

theorem selfInsert_state {env : Edit.Env} {st st' : Edit.St} (s : Edit.Spec.Session env st) (c : Char) (h : Edit.invoke env .selfInsert c st = some st') :
    st'.state = st.state := by
  obtain ⟨s1, st1, he, hi, -, fin, -⟩ := Edit.invoke_ok (Edit.session_good s) .selfInsert c trivial
  rw [h] at hi
  cases hi
  have he : some (Edit.selfInsert c { st with cur := some (.selfInsert, c) }) = some s1 := he
  have he := Option.some.inj he
  rw [fin.kept.state, ← he]
  show (Edit.selfInsert c _).state = _
  unfold Edit.selfInsert
  split
  · rfl
  · split
    · rfl
    · show (Edit.insertChars _ _ _).state = _
      rw [insertChars_state, (Edit.kept_clear _).state]

variable {T : Type}

/-- Typing a text: if none of its characters is bound or begins a key, the text appears in the line, before or in the place of what is behind the cursor,
however many bytes a character has. -/
theorem typing_shows_text {base : Terminal T Unit Unit} {env : Edit.Env} {maps : Edit.Mode → Trie.Node Char Edit.Cmd} {code : List Byte → Option (List Char)}
    {bound : Edit.Mode → List Char → Option Edit.Cmd}
    (h : Maps (editor base env maps) code (fun s k => s.bind fun st => bound st.mode k)) {t t' : T} {bytes : List Byte} {cs : List Char}
    (ht : Text base.decoder t bytes cs t') : ∀ {st : Edit.St}, Edit.Spec.Session env st → st.arg = {} → st.mode = .viInsert ∨ st.mode = .emacs →
    st.state = .editing → (∀ c ∈ cs, c ≠ '\x00') →
    (∀ b ∈ bytes, NotSpecial (editor base env maps) b ∧ (∀ x, code (b :: x) = none) ∧ (base.convmeta = false ∨ b < 0x80)) →
    (∀ c ∈ cs, c ≠ '\\' → ∀ x, bound st.mode (c :: x) = none) → bound st.mode "\\\\".toList = some .selfInsert →
    (∀ x, x ≠ [] → bound st.mode ("\\\\".toList ++ x) = none) →
    ∃ st', run (editor base env maps) (idle t (some st)) (bytes.map .typed) = some (idle t' (some st')) ∧
      Edit.Spec.text st' = (Edit.Spec.text st).take st.idx ++ cs ++ (Edit.Spec.text st).drop (if st.overwrite = none then st.idx else st.idx + cs.length) ∧
      st'.idx = st.idx + cs.length := by
  intro st s ha hm hs hc hb hu hbs hbx
  have hall : ∀ {t t' : T} {bytes : List Byte} {cs : List Char}, Text base.decoder t bytes cs t' → ∀ st1 : Edit.St, Edit.Spec.Session env st1 → st1.arg = {} →
      st1.mode = st.mode → st1.state = .editing → (∀ c ∈ cs, c ≠ '\x00') →
      (∀ b ∈ bytes, NotSpecial (editor base env maps) b ∧ (∀ x, code (b :: x) = none) ∧ (base.convmeta = false ∨ b < 0x80)) →
      (∀ c ∈ cs, c ≠ '\\' → ∀ x, bound st.mode (c :: x) = none) →
      ∃ st2, Edit.invokeAll env (cs.map fun c => (.selfInsert, c)) st1 = some st2 ∧
        Typed (editor base env maps) code (fun s k => s.bind fun st => bound st.mode k) t (some st1) (bytes.map .typed) t' (some st2) := by
    intro t t' bytes cs ht
    induction ht with
    | nil t => intro st1 _ _ _ _ _ _ _; exact ⟨st1, rfl, .nil _ _⟩
    | cons t bs c t1 bytes cs t' ho _ ih =>
      intro st1 s1 ha1 hm1 hs1 hc1 hb1 hu1
      obtain ⟨st2, h2, -⟩ := (show ∃ st2, Edit.invoke env .selfInsert c st1 = some st2 ∧ True from by
        obtain ⟨a, b, -, hi, -⟩ := Edit.invoke_ok (Edit.session_good s1) .selfInsert c trivial
        exact ⟨b, hi, trivial⟩)
      obtain ⟨-, g2, -, g4, -⟩ := Edit.typing_inserts s1 c (hc1 c (by simp)) (by rw [ha1]) h2
      have g5 := selfInsert_state s1 c h2
      obtain ⟨st3, h3, h4⟩ := ih st2 (.command .selfInsert c s1 trivial h2) g2 (g4.trans hm1) (g5.trans hs1) (fun x hx => hc1 x (by simp [hx]))
        (fun x hx => hb1 x (by simp [hx])) (fun x hx => hu1 x (by simp [hx]))
      refine ⟨st3, by rw [List.map_cons, Edit.invokeAll, h2]; exact h3, ?_⟩
      have hdef : (editor base env maps).default (some st1) = .selfInsert := by
        show (match st1.mode with
          | .viInsert => Edit.Cmd.selfInsert
          | .viCommand => .alert
          | .emacs => .selfInsert
          | .charExpect => .expectChar) = _
        rw [hm1]
        rcases hm with hm | hm <;> rw [hm]
      have hinv : (editor base env maps).invoke ((editor base env maps).default (some st1)) c (some st1) = some st2 := by rw [hdef]; exact h2
      rw [List.map_append]
      refine .char t (some st1) bs c t1 _ t' _ ?_ rfl ho (hc1 c (by simp)) ?_ ?_ (by rw [hinv]; exact h4)
      · show (st1.state == .editing) = true
        rw [hs1]; rfl
      · intro b hx
        obtain ⟨b1, b2, b3⟩ := hb1 b (by simp [hx])
        exact ⟨⟨b1, b2⟩, b3⟩
      · unfold Unbound
        rw [hdef]
        simp only [Option.bind_some, hm1]
        split
        · exact ⟨hbs, hbx⟩
        · rename_i hne; exact hu1 c (by simp) hne
  obtain ⟨st', h1, h2⟩ := hall ht st s ha rfl hs hc hb hu
  obtain ⟨g1, g2⟩ := Edit.typed_text_inserted cs st st' s hc ha (by rcases hm with hm | hm <;> rw [hm] <;> decide) h1
  exact ⟨st', typed_is_executed h h2, g1, g2⟩

/-! ## Examples -/

namespace Ex

/-- Escape, the up key, control-V, and a longer and a shorter function key. -/
def codeOps : List (Trie.Op Byte (List Char)) :=
  [.set [0x1B] "\\e".toList, .set [0x1B, 0x5B, 0x41] "\\U".toList, .set [0x16] "\\^V".toList, .set [0x1B, 0x4F] "\\F1".toList, .remove [0x1B, 0x4F]]

/-- The commands: 0 is the default command, 1 makes the next character verbatim, and 2 to 5 are others. -/
def keyOps : List (Trie.Op Char Nat) :=
  [.set "\\\\".toList 0, .set "\\^V".toList 1, .set "\\e".toList 2, .set "\\U".toList 3, .set "jk".toList 4, .set "\\!".toList 5]

/-- What has been executed, and whether the next character is to be taken verbatim. -/
abbrev Log := List (Nat × Char) × Bool

def term : Terminal (Nat × Nat) Log Nat where
  decoder := Input.utf8
  initial := (0, 0)
  codes := (Trie.run ltByte 0 codeOps).getD Trie.create
  interrupt := some 3
  eof := some 4
  kill := none
  erase := some 0x7F
  convmeta := false
  keymap _ := (Trie.run ltChar '\x00' keyOps).getD Trie.create
  default _ := 0
  invoke cmd c s := (s.1 ++ [(cmd, c)], cmd == 1)
  editing s := s.1.all fun e => e.1 != 5
  verbatim s := s.2
  unverbatim s := (s.1, false)
  stop s := (s.1 ++ [(5, '.')], s.2)

theorem maps : Maps term (Trie.specMap 0 codeOps) (fun _ => Trie.specMap '\x00' keyOps) where
  codes := ⟨codeOps, by
    show _ = some ((Trie.run ltByte 0 codeOps).getD _)
    have h : (Trie.run ltByte 0 codeOps).isSome = true := by decide +kernel
    cases he : Trie.run ltByte 0 codeOps with
    | none => rw [he] at h; cases h
    | some v => rfl, fun _ => rfl⟩
  keymap _ := ⟨keyOps, by
    show _ = some ((Trie.run ltChar '\x00' keyOps).getD _)
    have h : (Trie.run ltChar '\x00' keyOps).isSome = true := by decide +kernel
    cases he : Trie.run ltChar '\x00' keyOps with
    | none => rw [he] at h; cases h
    | some v => rfl, fun _ => rfl⟩
  noEmptyCode := rfl
  noEmptyKey _ := rfl

theorem char_a : OneChar Input.utf8 (0, 0) [0x61] 'a' (0, 0) := .last _ _ _ _ (by decide +kernel)

theorem char_backslash : OneChar Input.utf8 (0, 0) [0x5C] '\\' (0, 0) := .last _ _ _ _ (by decide +kernel)

theorem char_e : OneChar Input.utf8 (0, 0) [0xC3, 0xA9] 'é' (0, 0) := .more _ _ (1, 3) _ _ _ Input.step_lead (.last _ _ _ _ Input.step_trail)

theorem ordinary {b : Byte} (h : b ≠ 3 ∧ b ≠ 4 ∧ b ≠ 0x7F ∧ b ≠ 0x1B ∧ b ≠ 0x16) : Ordinary term (Trie.specMap 0 codeOps) b := by
  obtain ⟨h1, h2, h3, h4, h5⟩ := h
  refine ⟨?_, ?_⟩
  · simp [NotSpecial, specialKeys, term, Ne.symm h1, Ne.symm h2, Ne.symm h3]
  · intro x
    simp [Trie.specMap, codeOps, h4, h5]

theorem unbound {s : Log} {c : Char} (h : c ≠ '\\' ∧ c ≠ 'j') : Unbound term (fun _ => Trie.specMap '\x00' keyOps) s c := by
  simp [Unbound, Trie.specMap, keyOps, h.1, h.2]

theorem unbound_backslash {s : Log} : Unbound term (fun _ => Trie.specMap '\x00' keyOps) s '\\' := by
  refine ⟨rfl, ?_⟩
  intro x hx
  simp [Trie.specMap, keyOps, hx]

theorem longer_none {k x : List Char} (hx : x ≠ []) (h : k = "\\e".toList ∨ k = "\\U".toList ∨ k = "\\^V".toList ∨ k = "\\!".toList) :
    Trie.specMap '\x00' keyOps (k ++ x) = none := by
  rcases h with rfl | rfl | rfl | rfl <;> simp [Trie.specMap, keyOps, hx]

/-- For instance: two characters, one of them with two bytes, and a backslash; the up key, and the escape key, with whose code that of the up key begins;
and the interrupt character, which is first taken verbatim, and then a key. -/
example : run term (idle (0, 0) ([], false)) [.typed 0x61, .typed 0xC3, .typed 0xA9, .typed 0x5C, .typed 0x1B, .typed 0x5B, .typed 0x41, .typed 0x1B, .timeout,
      .typed 0x16, .typed 3, .typed 3] =
    some (idle (0, 0) ([(0, 'a'), (0, 'é'), (0, '\\'), (3, 'U'), (2, 'e'), (1, 'V'), (0, '\x03'), (5, '!')], false)) := by
  refine typed_is_executed maps ?_
  refine .char _ _ [0x61] 'a' (0, 0) _ _ _ rfl rfl char_a (by decide) (fun b hb => ⟨ordinary (by cases List.mem_singleton.1 hb; decide), .inl rfl⟩) (unbound (by decide)) ?_
  refine .char _ _ [0xC3, 0xA9] 'é' (0, 0) _ _ _ rfl rfl char_e (by decide) (fun b hb => ⟨ordinary (by
    rcases List.mem_cons.1 hb with rfl | hb
    · decide
    · cases List.mem_singleton.1 hb; decide), .inl rfl⟩) (unbound (by decide)) ?_
  refine .char _ _ [0x5C] '\\' (0, 0) _ _ _ rfl rfl char_backslash (by decide) (fun b hb => ⟨ordinary (by cases List.mem_singleton.1 hb; decide), .inl rfl⟩)
    unbound_backslash ?_
  refine .key _ _ [0x1B, 0x5B, 0x41] [0x1B, 0x5B, 0x41] "\\U".toList 3 'U' _ _ _ rfl rfl (by decide) (by decide) (by simp [NotSpecial, specialKeys, term])
    (fun x hx => by simp [Trie.specMap, codeOps, hx]) ⟨by decide, by decide, fun x hx => longer_none hx (by simp)⟩ ?_
  refine .late _ _ [0x1B] [0x1B] "\\e".toList 2 'e' [0x5B, 0x41] _ _ _ rfl rfl (by decide) (by decide) (by simp [NotSpecial, specialKeys, term])
    (by decide) (by decide) ⟨by decide, by decide, fun x hx => longer_none hx (by simp)⟩ ?_
  refine .key _ _ [0x16] [0x16] "\\^V".toList 1 'V' _ _ _ rfl rfl (by decide) (by decide) (by simp [NotSpecial, specialKeys, term])
    (fun x hx => by simp [Trie.specMap, codeOps, hx]) ⟨by decide, by decide, fun x hx => longer_none hx (by simp)⟩ ?_
  refine .verbatim _ _ [3] '\x03' (0, 0) _ _ _ rfl rfl (.last _ _ _ _ (by decide +kernel)) (fun _ _ => .inl rfl) ?_
  refine .special _ _ 3 "\\!".toList 5 '!' _ _ _ rfl rfl (.inl rfl) (by simp [SpecialKey, specialKeys, term]) ⟨by decide, by decide, fun x hx => longer_none hx (by simp)⟩ ?_
  exact .nil _ _

/-- The same terminal, where nothing is taken verbatim. -/
def plain : Terminal (Nat × Nat) Log Nat := { term with verbatim := fun _ => false, unverbatim := id }

theorem maps_plain : Maps plain (Trie.specMap 0 codeOps) (fun _ => Trie.specMap '\x00' keyOps) := ⟨maps.codes, maps.keymap, maps.noEmptyCode, maps.noEmptyKey⟩

/-- For instance, the beginning of a key sequence, of a key and of a character are waiting. -/
example : ∃ r evs1 evs2, run plain (idle plain.initial ([], false)) [.typed 0x61, .typed 0x1B, .timeout, .typed 0x6A, .typed 0xC3] = some r ∧ evs1 ++ evs2 = [.typed 0x61, .typed 0x1B, .timeout, .typed 0x6A, .typed 0xC3] ∧
    (evs2 = [] ∨ plain.editing r.ed = false) ∧ ∃ text st part, Sorts plain (Trie.specMap 0 codeOps) true plain.initial (evs1.flatMap (received plain)) text st (part ++ r.first) ∧
      Begins plain.decoder st part r.state ∧ Acts plain (fun _ => Trie.specMap '\x00' keyOps) ([], false) text r.ed r.second := by
  obtain ⟨r, evs1, evs2, h1, h2, h3⟩ := nothing_lost_partial maps_plain (fun _ => ⟨rfl, rfl⟩) ([], false) [.typed 0x61, .typed 0x1B, .timeout, .typed 0x6A, .typed 0xC3] true (by simp)
  exact ⟨r, evs1, evs2, h1, h2.symm, h3⟩

example : (run plain (idle plain.initial ([], false)) [.typed 0x61, .typed 0x1B, .timeout, .typed 0x6A, .typed 0xC3]).map (fun r => (r.first, r.second, r.ed.1, r.incomplete)) =
    some ([], ['j'], [(0, 'a'), (2, 'e')], true) := by decide +kernel

/-- What is missing: if a text begins like a key sequence to which a command is bound but goes on in another way, none of its characters is given to a command.
Here `jk` is bound, and the `j` and the `a` of `ja` are lost. -/
theorem text_like_key_lost : run term (idle (0, 0) ([], false)) [.typed 0x6A, .typed 0x61] = some (idle (0, 0) ([(0, '\x00')], false)) := by
  decide +kernel

/-- Another defect: if reading a line is interrupted when only a part of a character has been received, this is not forgotten, and so the first key of the next line
is not recognised. Here it is the interrupt character, to which command 5 is bound; it is given to the default command as a character. -/
theorem key_after_interruption : ∃ r, run term (idle (0, 0) ([], false)) [.typed 0xC3, .interrupted] = some r ∧ term.editing r.ed = false ∧
    (run term (readerInit term r ([], false)) [.typed 3]).map (·.ed.1) = some [(0, '\x03')] ∧
    (run term (idle (0, 0) ([], false)) [.typed 3]).map (·.ed.1) = some [(5, '!')] :=
  ⟨⟨[], (1, 3), [], true, false, ([(5, '.')], false)⟩, by decide +kernel, by decide, by decide +kernel, by decide +kernel⟩

/-! Typing in a line -/

def lineBase : Terminal (Nat × Nat) Unit Unit where
  decoder := Input.utf8
  initial := (0, 0)
  codes := term.codes
  interrupt := some 3
  eof := some 4
  kill := none
  erase := some 0x7F
  convmeta := false
  keymap _ := Trie.create
  default _ := ()
  invoke _ _ s := s
  editing _ := true
  verbatim _ := false
  unverbatim := id
  stop := id

def lineOps : List (Trie.Op Char Edit.Cmd) := [.set "\\\\".toList .selfInsert, .set "\\U".toList (.motion .backwardChar)]

def lineTerm : Terminal (Nat × Nat) (Option Edit.St) Edit.Cmd := editor lineBase Edit.Sample.env fun _ => (Trie.run ltChar '\x00' lineOps).getD Trie.create

theorem maps_line : Maps lineTerm (Trie.specMap 0 codeOps) (fun s k => s.bind fun _ => Trie.specMap '\x00' lineOps k) where
  codes := maps.codes
  keymap s := by
    cases s with
    | none => exact ⟨[], rfl, fun _ => rfl⟩
    | some st =>
      refine ⟨lineOps, ?_, fun _ => rfl⟩
      show _ = some ((Trie.run ltChar '\x00' lineOps).getD _)
      have h : (Trie.run ltChar '\x00' lineOps).isSome = true := by decide +kernel
      cases he : Trie.run ltChar '\x00' lineOps with
      | none => rw [he] at h; cases h
      | some v => rfl
  noEmptyCode := rfl
  noEmptyKey s := by cases s <;> rfl

/-- For instance, `aé\` is typed into an empty line. -/
example : ∃ st', run lineTerm (idle (0, 0) (some (Edit.start Edit.Sample.env false Edit.Spec.blank))) ([0x61, 0xC3, 0xA9, 0x5C].map .typed) = some (idle (0, 0) (some st')) ∧
    Edit.Spec.text st' = "aé\\".toList ∧ st'.idx = 3 := by
  have ht : Text Input.utf8 (0, 0) ([0x61] ++ ([0xC3, 0xA9] ++ ([0x5C] ++ []))) ['a', 'é', '\\'] (0, 0) :=
    .cons _ _ _ _ _ _ _ char_a (.cons _ _ _ _ _ _ _ char_e (.cons _ _ _ _ _ _ _ char_backslash (.nil _)))
  have s : Edit.Spec.Session Edit.Sample.env (Edit.start Edit.Sample.env false Edit.Spec.blank) := .first _ _ Edit.Sample.ok
  have h := typing_shows_text (base := lineBase) (env := Edit.Sample.env) (maps := fun _ => (Trie.run ltChar '\x00' lineOps).getD Trie.create)
    (bound := fun _ k => Trie.specMap '\x00' lineOps k) maps_line ht s (by decide +kernel) (.inr (by decide +kernel)) (by decide +kernel) (by decide)
    (by
      intro b hb
      obtain ⟨o1, o2⟩ := ordinary (b := b) (by revert b; decide)
      exact ⟨o1, o2, .inl rfl⟩)
    (by
      intro c hc h1 x
      simp [Trie.specMap, lineOps, h1])
    (by decide) (by intro x hx; simp [Trie.specMap, lineOps, hx])
  have e1 : Edit.Spec.text (Edit.start Edit.Sample.env false Edit.Spec.blank) = [] := by decide +kernel
  have e2 : (Edit.start Edit.Sample.env false Edit.Spec.blank).idx = 0 := by decide +kernel
  rw [e1, e2] at h
  simpa [lineTerm] using h

end Ex

end Yash.Keys
