import Verif.Shopt.Total
import Verif.Script.Lemmas
import Verif.Restore.Props
/-! # Options: what `set +o` prints restores them -/
set_option autoImplicit false

namespace Yash.Shopt

open Spec
open Yash.Expand (Locale Env lineOf Ordinary)
open Yash.Parser.Spec (LocaleOk keywords)
open Yash.Restore (Literal NameWord literal_chars)

/-- A shell in which the only command is `set`. Commands are executed if `exec` is on or the shell is interactive (yash.c:551). -/
def shell (W : World) (L : Locale) (env : State → Env State) : Script.Shell State where
  locale := L
  env := env
  active := fun s => s.val .exec || s.val .interactive
  exec := fun fields s =>
    match fields with
    | [] => none
    | name :: args =>
      if name = "set".toList then
        match setBuiltin W args s with
        | some (_, .success, s') => some s'
        | _ => none
      else none

/-- The lines for the options. -/
def lines (s : State) : List (List Str) :=
  (shellOptions.filter (·.resettable)).map fun o => ["set".toList, [sign (s.val o.var), 'o'], o.name]

theorem restoring_eq (s : State) : restoring s = ((lines s).map fun l => l.map fun w => (w, w)).flatMap fun l => lineOf (l.map (·.1)) := by
  have key : ∀ l : List Opt, (l.flatMap fun o => if o.resettable then "set ".toList ++ (if s.val o.var then '-' else '+') :: "o ".toList ++ o.name ++ ['\n'] else []) =
      (((l.filter (·.resettable)).map fun o => ["set".toList, [sign (s.val o.var), 'o'], o.name]).map fun l => l.map fun w => (w, w)).flatMap fun l => lineOf (l.map (·.1)) := by
    intro l
    induction l with
    | nil => rfl
    | cons o l ih =>
      rw [List.flatMap_cons, ih, List.filter_cons]
      cases o.resettable with
      | false => rfl
      | true => cases h : s.val o.var <;> simp [lineOf, sign, h]
  exact key shellOptions

theorem letter_ordinary {L : Locale} (hL : LocaleOk L) {c : Char} (h1 : 'a' ≤ c) (h2 : c ≤ 'z') : Ordinary L c := by
  have ha := hL.lower c h1 h2
  refine ⟨fun h => ?_, hL.ok.alnum_blank c ha⟩
  have : ∀ c ∈ "\"'\\$`\n;&|<>(){*?[~#".toList, ¬('a' ≤ c ∧ c ≤ 'z') := by decide
  exact this c h ⟨h1, h2⟩

theorem names_lower : ∀ o ∈ shellOptions, o.name ≠ [] ∧ ∀ c ∈ o.name, 'a' ≤ c ∧ c ≤ 'z' := by decide +kernel

theorem sign_ordinary {L : Locale} (hL : LocaleOk L) (b : Bool) : Ordinary L (sign b) := by
  cases b
  · exact ⟨by decide, hL.ok.punct_blank '+' (by decide)⟩
  · exact ⟨by decide, hL.ok.punct_blank '-' (by decide)⟩

theorem set_nameWord {L : Locale} (hL : LocaleOk L) : NameWord L "set".toList := by
  have h : ∀ d ∈ "set".toList, 'a' ≤ d ∧ d ≤ 'z' := by decide
  exact ⟨'s', ['e', 't'], rfl, by decide, fun d hd => .inr (hL.lower d (h d hd).1 (h d hd).2)⟩

/-- Which options are as in `s`. -/
def Done (s t t' : State) (os : List Opt) : Prop :=
  (∀ o ∈ os, t'.val o.var = s.val o.var) ∧ (∀ v ∈ fixed, t'.val v = t.val v) ∧ t'.params = t.params ∧ (Consistent t → Consistent t')

theorem plainName_self {W : World} (hW : Letters W) {n : Str} (hn : ∀ c ∈ n, 'a' ≤ c ∧ c ≤ 'z') : plainName W n = n := by
  have := plainName_word hW hn []
  simpa [plainName] using this

theorem restore_step {W : World} (hW : Letters W) {s : State} (hs : Consistent s) (htty : s.val .monitor = true → W.tty = true) {t t' : State} {os : List Opt} (hos : ∀ p ∈ os, p ∈ shellOptions)
    {o : Opt} (ho : o ∈ shellOptions) (hr : o.resettable = true) (hno : o ∉ os) (h : Done s t t' os) :
    ∃ t'', setBuiltin W [[sign (s.val o.var), 'o'], o.name] t' = some ([], .success, t'') ∧ Done s t t'' (os ++ [o]) ∧
      (o.var ≠ .exec → t''.val .exec = t'.val .exec) := by
  have hd : Denotes W o.name o false := .inl ⟨ho, by rw [plainName_self hW (names_lower o ho).2]; rfl⟩
  have hg : Gives W false (t'.val .posixlycorrect) [[sign (s.val o.var), 'o'], o.name] o (s.val o.var) := by
    have := Gives.separate (starting := false) (posix := t'.val .posixlycorrect) (s.val o.var) hd
    simpa using this
  obtain ⟨t'', h1, h2, -⟩ := set_option_given hW hg hr (fun hm hb => htty (hm ▸ hb))
  refine ⟨t'', h2, ⟨?_, ?_, ?_, fun hc => h1.consistent (h.2.2.2 hc)⟩, fun hne => ?_⟩
  · intro p hp
    rw [h1.val]
    rcases List.mem_append.1 hp with hp | hp
    · have hne : p.var ≠ o.var := fun he => hno (vars_unique o ho p (hos p hp) he ▸ hp)
      rw [turned, if_neg hne]
      split
      · rename_i hriv
        have : ∀ v w, rival v = some w → s.val v = true → s.val w = false := by
          intro v w hvw hv
          have c1 := hs.editor
          have c2 := hs.meta8
          cases v <;> simp only [rival, Option.some.injEq, reduceCtorEq] at hvw <;> subst hvw <;> simp_all
        rw [this _ _ hriv.2 hriv.1]
      · exact h.1 p hp
    · simp only [List.mem_singleton] at hp
      subst hp
      simp [turned]
  · intro v hv
    rw [set_keeps_fixed h2 hv, h.2.1 v hv]
  · rw [h1.params, h.2.2.1]
  · rw [h1.val, turned, if_neg (fun he => hne he.symm), if_neg]
    rintro ⟨-, hriv⟩
    cases hv : o.var <;> rw [hv] at hriv <;> simp [rival] at hriv

/-- The options are set one after another, as long as commands are executed. -/
theorem restore_all {W : World} (hW : Letters W) {L : Locale} {env : State → Env State} {s : State} (hs : Consistent s) (htty : s.val .monitor = true → W.tty = true) {t : State}
    (ha : s.val .exec = true ∨ t.val .interactive = true) :
    ∀ (os done : List Opt) (t' : State), (∀ p ∈ os, p ∈ shellOptions ∧ p.resettable = true) → (∀ p ∈ done, p ∈ shellOptions) → (done ++ os).Nodup → Done s t t' done →
      (t'.val .exec = true ∨ t.val .interactive = true) →
      ∃ t'', Script.execAll (shell W L env) (os.map fun o => ["set".toList, [sign (s.val o.var), 'o'], o.name]) t' = some t'' ∧ Done s t t'' (done ++ os)
  | [], done, t', _, _, _, h, _ => ⟨t', rfl, by simpa using h⟩
  | o :: os, done, t', ho, hdone, hn, h, hact => by
    obtain ⟨h1, h2⟩ := ho o (by simp)
    have hno : o ∉ done := by
      intro hmem
      exact (List.nodup_append.1 hn).2.2 o hmem o (by simp) rfl
    obtain ⟨t1, h3, h4, h4'⟩ := restore_step hW hs htty hdone h1 h2 hno h
    have hint : t'.val .interactive = t.val .interactive := h.2.1 _ (by decide)
    have hx : (shell W L env).active t' = true := by
      show (t'.val .exec || t'.val .interactive) = true
      rw [hint]
      simpa using hact
    have hexec : t1.val .exec = true ∨ t.val .interactive = true := by
      rcases ha with ha | ha
      · rcases hact with hact | hact
        · by_cases hv : o.var = .exec
          · left
            have := h4.1 o (by simp)
            rw [hv] at this
            rw [this, ha]
          · left
            rw [h4' hv, hact]
        · exact .inr hact
      · exact .inr ha
    obtain ⟨t2, h5, h6⟩ := restore_all hW hs htty ha os (done ++ [o]) t1 (fun p hp => ho p (by simp [hp])) (by
      intro p hp
      rcases List.mem_append.1 hp with hp | hp
      · exact hdone p hp
      · simp only [List.mem_singleton] at hp; exact hp ▸ h1) (by simpa using hn) h4 hexec
    refine ⟨t2, ?_, by simpa using h6⟩
    rw [List.map_cons, Script.execAll, if_pos hx]
    have : (shell W L env).exec ["set".toList, [sign (s.val o.var), 'o'], o.name] t' = some t1 := by
      simp only [shell, if_true, h3]
    rw [this]
    exact h5

theorem restoring_run {W : World} {L : Locale} (hL : LocaleOk L) {env : State → Env State} (hE : ∀ s, (env s).locale = L ∧ (env s).long.Ok) (s t : State) :
    Script.run (shell W L env) (restoring s) t = Script.execAll (shell W L env) (lines s) t := by
  have hlines : ∀ l ∈ (lines s).map fun l => l.map fun w => (w, w), Script.Line L l := by
    intro l hl
    obtain ⟨l, h1, rfl⟩ := List.mem_map.1 hl
    obtain ⟨o, h2, rfl⟩ := List.mem_map.1 h1
    have ho := (List.mem_filter.1 h2).1
    have hn := names_lower o ho
    refine Script.line_name hL (set_nameWord hL) (by decide) ?_
    intro w hw
    simp only [List.map_cons, List.map_nil, List.mem_cons, List.not_mem_nil, or_false] at hw
    rcases hw with rfl | rfl
    · refine literal_chars (by simp) fun c hc => ?_
      simp only [List.mem_cons, List.not_mem_nil, or_false] at hc
      rcases hc with rfl | rfl
      · exact sign_ordinary hL _
      · exact letter_ordinary hL (by decide) (by decide)
    · exact literal_chars hn.1 fun c hc => letter_ordinary hL (hn.2 c hc).1 (hn.2 c hc).2
  rw [restoring_eq, Script.run_eq (shell W L env) hL hE _ hlines, List.map_map]
  have hid : (fun l : List (Str × Str) => l.map (·.2)) ∘ (fun l : List Str => l.map fun w => (w, w)) = id := by
    funext l
    simp [Function.comp_def]
  rw [hid, List.map_id]

/-- What `set +o` prints in a shell, executed in another one, gives all options that can be changed the values they had in the first, and changes nothing
else. The second shell must execute commands, and go on to do so. -/
theorem options_restored {W : World} (hW : Letters W) {L : Locale} (hL : LocaleOk L) {env : State → Env State} (hE : ∀ s, (env s).locale = L ∧ (env s).long.Ok)
    {s : State} (hs : Consistent s) (htty : s.val .monitor = true → W.tty = true) {t : State}
    (hact : (s.val .exec = true ∧ t.val .exec = true) ∨ t.val .interactive = true) :
    ∃ text, setBuiltin W ["+o".toList] s = some (text, .success, s) ∧
      ∃ t', Script.run (shell W L env) text t = some t' ∧
        (∀ v, v ∉ fixed → t'.val v = s.val v) ∧ (∀ v ∈ fixed, t'.val v = t.val v) ∧ t'.params = t.params ∧ (Consistent t → t'.lineedit = s.lineedit ∧ t'.convmeta = s.convmeta) := by
  refine ⟨restoring s, rfl, ?_⟩
  rw [restoring_run hL hE]
  obtain ⟨t', h1, h2⟩ := restore_all (L := L) (env := env) hW hs htty (t := t) (hact.imp (·.1) id) (shellOptions.filter (·.resettable)) [] t
    (fun p hp => List.mem_filter.1 hp) (by simp) (by rw [List.nil_append]; exact table_nodup.filter _) ⟨by simp, by simp, rfl, id⟩ (hact.imp (·.2) id)
  have hval : ∀ v, v ∉ fixed → t'.val v = s.val v := by
    intro v hv
    have : ∀ v, v ∉ fixed → ∃ o ∈ shellOptions, o.resettable = true ∧ o.var = v := by
      intro v
      cases v <;> decide +kernel
    obtain ⟨o, g1, g2, rfl⟩ := this v hv
    exact h2.1 o (by simp [g1, g2])
  refine ⟨t', h1, hval, h2.2.1, h2.2.2.1, fun hc => ?_⟩
  have c' := h2.2.2.2 hc
  have e1 := hval .vi (by decide)
  have e2 := hval .emacs (by decide)
  have e3 := hval .leconvmeta (by decide)
  have e4 := hval .lenoconvmeta (by decide)
  have f1 := c'.vi.trans (e1 ▸ hs.vi.symm)
  have f2 := c'.emacs.trans (e2 ▸ hs.emacs.symm)
  have f3 := c'.yes.trans (e3 ▸ hs.yes.symm)
  have f4 := c'.no.trans (e4 ▸ hs.no.symm)
  constructor
  · cases h5 : t'.lineedit <;> cases h6 : s.lineedit <;> simp_all
  · cases h5 : t'.convmeta <;> cases h6 : s.convmeta <;> simp_all

/-! ## Examples -/

def demoWorld : World where
  alnum := fun c => decide ('a' ≤ c ∧ c ≤ 'z') || decide ('A' ≤ c ∧ c ≤ 'Z') || decide ('0' ≤ c ∧ c ≤ '9')
  lower := fun c => c.toLower
  tty := false

theorem demo_letters : Letters demoWorld where
  minus := by decide
  plus := by decide
  alnum := fun c h1 h2 => by simp [demoWorld, h1, h2]
  lower := fun c h1 h2 => by
    show c.toLower = c
    unfold Char.toLower
    rw [dif_neg]
    rintro ⟨-, h⟩
    have : ('a' : Char).val ≤ 'Z'.val := UInt32.le_trans h1 h
    revert this
    decide

/-- A shell that has just been started without arguments. -/
def fresh : State where
  val := fun v => decide (v ∈ [Var.braceexpand, .caseglob, .clobber, .curasync, .curbg, .curstop, .exec, .glob, .log, .unset, .lepromptsp])
  lineedit := .noLineEdit
  convmeta := .auto
  params := []

theorem fresh_reachable : Reachable demoWorld fresh := .start fresh rfl rfl rfl rfl rfl rfl

def demoShellEnv : State → Env State := fun _ => {
  posix := false, unsetOk := true, braceexpand := true, glob := true, nullglob := true, emptylast := false, locale := Yash.Expand.cLocale, long := Yash.Expand.long64,
  chars := Fnmatch.asciiLocale, getvar := fun _ _ => none, get := fun _ _ => .notFound, dirEntry := fun _ _ => none, homeOf := fun _ => none, set := fun s _ _ => (s, true),
  setElement := fun s _ _ _ => (s, true), cmdsub := fun s _ => (s, some []), arith := fun s _ => (s, some []), index := fun s _ => (s, some 1), isName := fun _ => true,
  wglob := fun _ _ => [['f']] }

theorem demoShellEnv_ok (s : State) : (demoShellEnv s).locale = Yash.Expand.cLocale ∧ (demoShellEnv s).long.Ok := ⟨rfl, Yash.Expand.long64_ok⟩

/-- The name `No-Clob`: an abbreviation of `noclobber`. -/
example : Denotes demoWorld "No-Clob".toList ⟨none, some 'C', "clobber".toList, .clobber, true⟩ true := collect_iff.2 (by decide +kernel)

/-- `set -C` and `set --No-Clob` are two ways of writing the same. -/
example : Gives demoWorld false false ["-C".toList] ⟨none, some 'C', "clobber".toList, .clobber, true⟩ false := .inverse true (by decide +kernel) rfl
example : Gives demoWorld false false ["--No-Clob".toList] ⟨none, some 'C', "clobber".toList, .clobber, true⟩ false :=
  .long true (name := "No-Clob".toList) (neg := true) (collect_iff.2 (by decide +kernel)) rfl (fun _ => by decide)

/-- `set -o le`: ambiguous. -/
example (o : Opt) (neg : Bool) : ¬Denotes demoWorld "le".toList o neg := fun h => by
  have h1 : (collect demoWorld "le".toList).1.length = 1 := by rw [collect_iff.1 h]; rfl
  revert h1
  decide +kernel

/-- The shell `set -o vi` leads to, and then `set -o emacs`. -/
example : ((setBuiltin demoWorld ["-o".toList, "vi".toList, "-eu".toList, "-o".toList, "emacs".toList, "--".toList, "-x".toList] fresh).map fun r =>
    ((r.2.1, r.2.2.lineedit, r.2.2.params), r.2.2.val .vi, r.2.2.val .emacs, r.2.2.val .unset, r.2.2.val .errexit)) =
    some ((.success, .emacs, ["-x".toList]), false, true, false, true) := by decide +kernel

example : hyphen fresh = [] := by decide +kernel
example : testOption demoWorld fresh "no_glob".toList = some false := by decide +kernel

/-- A shell with other options, and what happens when its options are given to the first shell. -/
def other : State := (((fresh.set .vi true).set .xtrace true).set .clobber false : State).set .posixlycorrect true |> updateLineedit

theorem other_consistent : Consistent other := consistent_mk (by decide) (by decide) rfl rfl

example : ∃ text, setBuiltin demoWorld ["+o".toList] other = some (text, .success, other) ∧
    ∃ t', Script.run (shell demoWorld Yash.Expand.cLocale demoShellEnv) text fresh = some t' ∧ t'.val .xtrace = true ∧ t'.val .clobber = false ∧ t'.lineedit = .vi := by
  obtain ⟨text, h1, t', h2, h3, _, _, h4⟩ := options_restored demo_letters Yash.Parser.cLocale_localeOk demoShellEnv_ok other_consistent (by decide) (t := fresh) (.inl ⟨rfl, rfl⟩)
  exact ⟨text, h1, t', h2, h3 _ (by decide), h3 _ (by decide), (h4 (options_consistent fresh_reachable)).1⟩

/-! ## What is not restored -/

/-- If `exec` is off, the options after it in the list are not restored by a shell that is not interactive: `+o exec` comes first and makes it ignore
the commands after it. -/
theorem options_not_restored : ∃ text, setBuiltin demoWorld ["+o".toList] (other.set .exec false) = some (text, .success, other.set .exec false) ∧
    ∃ t', Script.run (shell demoWorld Yash.Expand.cLocale demoShellEnv) text fresh = some t' ∧ t'.val .clobber = false ∧ t'.val .xtrace = false ∧ t'.val .vi = false := by
  refine ⟨_, rfl, ?_⟩
  rw [restoring_run Yash.Parser.cLocale_localeOk demoShellEnv_ok]
  have h : ((Script.execAll (shell demoWorld Yash.Expand.cLocale demoShellEnv) (lines (other.set .exec false)) fresh).map fun t => (t.val .clobber, t.val .xtrace, t.val .vi)) =
      some (false, false, false) := by decide +kernel
  rw [Option.map_eq_some_iff] at h
  obtain ⟨t', h1, h2⟩ := h
  refine ⟨t', h1, ?_⟩
  simpa using h2

end Yash.Shopt
