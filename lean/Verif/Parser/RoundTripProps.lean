import Verif.Parser.RoundTrip
import Verif.Parser.Agree
import Verif.Expand.QuoteProps
/-!
# C55 and C56: printed commands are read back, and parsing ends
-/
set_option autoImplicit false

namespace Yash.Parser

open Syntax Spec
open Expand (Locale cLocale cLocale_ok)

variable {L : Locale}

/-! ## C56: parsing ends -/

/-- The recursion is never cut off: however deep the recursion and however many rounds of the loops are allowed, as long as
they are more than the length of the text, the result is that of `parseLine`. In particular a syntax error is reported only
if there is one. -/
theorem parse_ends (hn : L.blank '\n' = false) (s : List Char) (n : Nat) (h : s.length + 2 ≤ n) : parseLineN L n s = parseLine L s :=
  parseLineN_eq hn s h

/-- What is left to read is not longer than what was there. -/
theorem parse_reads_forward (hn : L.blank '\n' = false) {s rest : List Char} {l : List AndOr} (h : parseLine L s = some (l, rest)) :
    rest.length ≤ s.length ∧ (s ≠ [] → l ≠ [] → rest.length < s.length) := by
  simp only [parseLine, parseLineN, Option.bind_eq_bind, Option.bind_eq_some_iff] at h
  obtain ⟨tk, h1, ⟨l1, st⟩, h2, h⟩ := h
  cases h
  have hR := parser_prog hn (s.length + 3)
  have g1 := (nextToken_after hn hR.special h1).size
  simp only at g1
  have g2 : ∀ n need {tk : Token} {l st}, lineLoop L (parser L (s.length + 3)) n need tk = some (l, st) →
      st.rest.length ≤ tk.src.rest.length + bonus tk ∧ (l ≠ [] → st.rest.length < tk.src.rest.length + bonus tk) := by
    intro n
    induction n with
    | zero => intro need tk l st h; simp [lineLoop] at h
    | succ n ih =>
      intro need tk l st h
      rw [lineLoop] at h
      split at h
      · cases h
        exact ⟨by omega, by simp⟩
      · split at h
        · cases h
        · simp only [Option.bind_eq_bind, Option.bind_eq_some_iff] at h
          obtain ⟨⟨a, tk1⟩, e1, ⟨need', tk2⟩, e2, ⟨l1, st1⟩, e3, h⟩ := h
          cases h
          obtain ⟨⟨k1, -⟩, k2⟩ := andOr_fwd hn hR e1
          have k3 := (separator_fwd hn hR e2).1
          have k4 : st1.rest.length ≤ tk2.src.rest.length + bonus tk2 := (ih need' e3).1
          have k5 : tk2.src.rest.length + bonus tk2 ≤ tk1.src.rest.length + bonus tk1 := k3
          have k6 : tk1.src.rest.length + bonus tk1 ≤ tk.src.rest.length := k1
          exact ⟨by simp only; omega, fun _ => by simp only; omega⟩
  obtain ⟨g3, g4⟩ := g2 _ _ h2
  refine ⟨by simp only; omega, fun _ hl => ?_⟩
  have := g4 hl
  simp only
  omega

/-! ## C55: printed commands are read back -/

/-- A command that occurs in something the parser has read, and that has none of the features the printer does not handle,
is printed as a text from which the parser reads the same command and nothing else. `multiline` is true for function definitions
and false for jobs. -/
theorem printed_command_reads_back_partial (hL : LocaleOk L) {s rest : List Char} {l : List AndOr} (hs : s.getLast? ≠ some '\\')
    (h : parseLine L s = some (l, rest)) {c : Command} (hc : CommandIn c l) (hok : CommandOk L c) (multiline : Bool) :
    parseLine L (commandToWcs L c multiline) = some ([.mk [.mk [c] false false] false], []) := by
  obtain ⟨m, hm⟩ := command_round hL hs h hc hok multiline
  have : parseLineN L (m + (commandToWcs L c multiline).length + 2) (commandToWcs L c multiline) = some ([.mk [.mk [c] false false] false], []) :=
    hm _ (by omega)
  rwa [parse_ends hL.newline _ _ (by omega)] at this

/-- The same for the pipelines of an and-or list, as printed in the names of asynchronous jobs. -/
theorem printed_pipelines_read_back_partial (hL : LocaleOk L) {s rest : List Char} {l : List AndOr} (hs : s.getLast? ≠ some '\\')
    (h : parseLine L s = some (l, rest)) {ps : List Pipeline} {async : Bool} (ha : AndOrIn (.mk ps async) l) (hok : PipelinesOk L ps) :
    parseLine L (pipelinesToWcs L ps) = some ([.mk ps false], []) := by
  obtain ⟨m, hm⟩ := pipelines_round hL hs h ha hok
  have : parseLineN L (m + (pipelinesToWcs L ps).length + 2) (pipelinesToWcs L ps) = some ([.mk ps false], []) := hm _ (by omega)
  rwa [parse_ends hL.newline _ _ (by omega)] at this

/-- Two different commands are never printed alike. -/
theorem printed_commands_differ_partial (hL : LocaleOk L) {s s' rest rest' : List Char} {l l' : List AndOr} (hs : s.getLast? ≠ some '\\')
    (hs' : s'.getLast? ≠ some '\\') (h : parseLine L s = some (l, rest)) (h' : parseLine L s' = some (l', rest')) {c c' : Command}
    (hc : CommandIn c l) (hc' : CommandIn c' l') (hok : CommandOk L c) (hok' : CommandOk L c') {ml ml' : Bool}
    (he : commandToWcs L c ml = commandToWcs L c' ml') : c = c' := by
  have h1 := printed_command_reads_back_partial hL hs h hc hok ml
  have h2 := printed_command_reads_back_partial hL hs' h' hc' hok' ml'
  rw [he, h2] at h1
  cases h1
  rfl

/-! ## Examples -/

theorem cLocale_localeOk : LocaleOk cLocale where
  ok := cLocale_ok
  space := rfl
  newline := rfl
  digit c h1 h2 := by
    have : c.isDigit = true := by simp [Char.isDigit, Char.le_def] at *; exact ⟨h1, h2⟩
    simp [cLocale, Char.isAlphanum, this]
  lower c h1 h2 := by
    have : c.isLower = true := by simp [Char.isLower, Char.le_def] at *; exact ⟨h1, h2⟩
    simp [cLocale, Char.isAlphanum, Char.isAlpha, this]
  upper c h1 h2 := by
    have : c.isUpper = true := by simp [Char.isUpper, Char.le_def] at *; exact ⟨h1, h2⟩
    simp [cLocale, Char.isAlphanum, Char.isAlpha, this]
  punct := by decide

namespace Ex

def w (s : String) : Word := [.str s.toList]

def one (c : Command) : List AndOr := [.mk [.mk [c] false false] false]

/-- `f() { for i in "$@" "${x:-$(pwd)}"; do echo "$i" >&2 & done; }` -/
def source : List Char := "f() { for i in \"$@\" ${x:-$(pwd)}; do echo \"$i\" >&2 & done; }\n".toList

def body : Command :=
  .group [] (one (.fors [] "i".toList
    (some [[.str "\"".toList, .param (.mk {} (.name "@".toList) [] [] [] []), .str "\"".toList],
      [.param (.mk { op := .minus, colon := true } (.name "x".toList) [] [] [] [.cmdsub (.parsed (one (.simple [] [] [w "pwd"])))])]])
    [.mk [.mk [.simple [.file .dupout 1 (w "2")] [] [w "echo",
      [.str "\"".toList, .param (.mk {} (.name "i".toList) [] [] [] []), .str "\"".toList]]] false false] true]))

example : parseLine cLocale source = some (one (.funcdef [] (w "f") body), []) := rfl

theorem source_read : parseLine cLocale source = some (one (.funcdef [] (w "f") body), []) := rfl

/-- The recursion may be allowed to go much deeper than needed; the result is the same. -/
example : parseLineN cLocale 1000 source = some (one (.funcdef [] (w "f") body), []) := by
  rw [parse_ends rfl source 1000 (by decide), source_read]

example : ([] : List Char).length < source.length := (parse_reads_forward (L := cLocale) rfl source_read).2 (by decide) (by simp [one])

/-- The last character of the text at the end of a word. -/
def lastChar (w : Word) : Option Char :=
  match w.getLast? with
  | some (.str s) => s.getLast?
  | _ => none

theorem not_space {w : Word} (h : lastChar w ≠ some ' ') : ¬EndsWithSpace w := by
  rintro ⟨w', s, rfl⟩
  simp [lastChar] at h

theorem bodyOk : CommandOk cLocale body := by
  simp [body, one, w, CommandOk, RedirsOk, ListOk, AndOrOk, PipelinesOk, PipelineOk, CommandsOk, WordsOk, WordOk, UnitOk, ParamOk, BaseOk,
    EmbedOk, AssignsOk, RedirOk, EmptyPattern, maxFd, Keyword, keywords]
  exact ⟨not_space (by decide), not_space (by decide), not_space (by decide), not_space (by decide)⟩

theorem bodyIn : CommandIn body (one (.funcdef [] (w "f") body)) :=
  ⟨_, _, .self _, ⟨_, _, _, _, _, List.mem_singleton.mpr rfl, List.mem_singleton.mpr rfl, List.mem_singleton.mpr rfl⟩, .function _ _ (.self _)⟩

/-- The hypotheses are met by the body of a function. -/
example : parseLine cLocale (commandToWcs cLocale body true) = some (one body, []) :=
  printed_command_reads_back_partial cLocale_localeOk (by decide) source_read bodyIn bodyOk true

/-- This is what is printed. -/
example : commandToWcs cLocale body true =
    "{\n   for i in \"${@}\" ${x:-$(pwd)}\n   do\n      echo \"${i}\" 1>&2&\n   done\n}\n".toList := rfl

end Ex

end Yash.Parser
