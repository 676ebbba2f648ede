import Verif.Bindkey.Props
import Verif.Parser.RoundTripProps
/-! # Key bindings: examples -/
set_option autoImplicit false

namespace Yash.Bindkey

open Spec
open Yash.Expand (Env)

def demoConfig : Config where
  locale := Yash.Expand.cLocale
  posix := false
  isDigit := fun c => decide ('0' ≤ c ∧ c ≤ '9')
  encode := fun s => if s.all fun c => c.toNat < 128 then some (s.map Char.toNat) else none

theorem demo_encodes : EncodesAscii demoConfig.encode := by
  intro a ha s
  show (if s.all fun c => c.toNat < 128 then some (s.map Char.toNat) else none) = _ ↔ _
  have inj : ∀ x y : Str, x.map Char.toNat = y.map Char.toNat → x = y := by
    intro x
    induction x with
    | nil => intro y h; cases y <;> simp_all
    | cons c x ih =>
      intro y h
      cases y with
      | nil => simp at h
      | cons d y =>
        simp only [List.map_cons, List.cons.injEq] at h
        rw [ih y h.2, Char.toNat_inj.1 h.1]
  constructor
  · intro h
    split at h
    · exact inj s a (Option.some.inj h)
    · cases h
  · rintro rfl
    rw [if_pos]
    exact List.all_eq_true.2 fun c hc => by simpa using ha c hc

def demoEnv : State → Env State := fun _ => {
  posix := false, unsetOk := true, braceexpand := true, glob := true, nullglob := true, emptylast := false, locale := Yash.Expand.cLocale, long := Yash.Expand.long64,
  chars := Fnmatch.asciiLocale, getvar := fun _ _ => none, get := fun _ _ => .notFound, dirEntry := fun _ _ => none, homeOf := fun _ => none, set := fun s _ _ => (s, true),
  setElement := fun s _ _ _ => (s, true), cmdsub := fun s _ => (s, some []), arith := fun s _ => (s, some []), index := fun s _ => (s, some 1), isName := fun _ => true,
  wglob := fun _ _ => [['f']] }

theorem demoEnv_ok (s : State) : (demoEnv s).locale = demoConfig.locale ∧ (demoEnv s).long.Ok := ⟨rfl, Yash.Expand.long64_ok⟩

theorem undo_named : Names "undo-all".toList "undo_all".toList := ⟨"undo_all".toList, by decide +kernel, by decide, by decide⟩

/-- In the initial state `D` is bound in the vi command mode to the command that is also called `forward-kill-line`. -/
example : ∃ s, Reachable s ∧ bound s .viCommand "D".toList = some "forward_kill_line".toList ∧ bound s .viCommand "\\^[x".toList = none := by
  obtain ⟨s, -, h2, h3⟩ := initial_bindings
  refine ⟨s, h2, ?_, ?_⟩
  · have := (h3 .viCommand).1 ("D".toList, "vi_delete_to_eol".toList) (by decide +kernel)
    simpa [function] using this
  · exact (h3 .viCommand).2 _ (by decide +kernel)

/-- `bindkey -a -- -x undo-all`, and then `bindkey -a` in that shell, executed in one where nothing was bound by the user. -/
example : ∃ s t, Reachable s ∧ Reachable t ∧ bound s .viCommand "-x".toList = some "undo_all".toList ∧ bound t .viCommand "-x".toList = none ∧
    ∃ text, bindkeyBuiltin demoConfig ["--vi-command".toList] s = some (text, .success, s) ∧ ∃ t', Script.run (shell demoConfig demoEnv) text t = some t' ∧
      bound t' .viCommand "-x".toList = some "undo_all".toList ∧ ∀ key, bound t' .emacs key = bound t .emacs key := by
  obtain ⟨t, -, ht, h3⟩ := initial_bindings
  obtain ⟨s, h4, h5, -⟩ := bind_sets (C := demoConfig) rfl demo_encodes ht (Usage.separated .a) (key := "-x".toList) (by decide) undo_named
  have hs := ht.step h4
  obtain ⟨text, g1, t', g2, g3, g4⟩ := bindings_restored (C := demoConfig) rfl demo_encodes Yash.Parser.cLocale_localeOk demoEnv_ok hs ht (Usage.plain .viCommand (by simp))
  exact ⟨s, t, hs, ht, h5, (h3 .viCommand).2 _ (by decide +kernel), text, g1, t', g2, g3 _ _ h5, fun key => g4 _ _ (.inl (by decide))⟩

/-- The line that is printed for a key sequence that begins with a hyphen. -/
example : printBindingMain demoConfig .viCommand "-x".toList "undo_all".toList = some "bindkey -a -- -x undo-all\n".toList := by decide +kernel
example : printBindingMain demoConfig .emacs "\\^[ ".toList "forward_kill_line".toList = some "bindkey -e '\\^[ ' forward-kill-line\n".toList := by decide +kernel

/-- No command is called `undo_all`. -/
example : ¬∃ f, Names "undo_all".toList f := by
  rintro ⟨f, h⟩
  have := (names_chars h).2.2 '_' (by decide)
  revert this
  decide

end Yash.Bindkey
