import Verif.Parser.Parts
/-!
# Printed commands are read back
-/
set_option autoImplicit false

namespace Yash.Parser

open Syntax Spec
open Expand (Locale)

variable {L : Locale}

/-- What is printed for an and-or list, read as a line. -/
theorem line_read (hL : LocaleOk L) {ps : List Pipeline} (h : AndRT L (.mk ps false)) (ml nl : Bool) :
    Ev fun m => parseLineN L m (trimEnd (printPipelines L ml 0 true ps []) ++ (if nl then ['\n'] else [])) = some ([.mk ps false], []) := by
  obtain ⟨k, s, h1, h2, h3⟩ := and_read hL h.1 h.2 ml 0 []
  rw [h1, h2.trim]
  have hend : ∃ tk, At L (s.reverse ++ List.replicate k ' ') (if nl then ['\n'] else []) tk ∧ tk.src.rest = [] ∧
      (tk.type = .newline ∨ tk.type = .eoi) ∧ Sep (if nl then ['\n'] else []) := by
    cases nl
    · exact ⟨_, At.eoi _, rfl, .inr rfl, by simp [Sep]⟩
    · exact ⟨_, At.newline hL _ _, rfl, .inl rfl, Sep.newline _⟩
  obtain ⟨tk, ha, hr, ht, hs⟩ := hend
  have hw : tk.word = [] := ha.word (by rcases ht with ht | ht <;> rw [ht] <;> decide)
  obtain ⟨tk0, ha0, hst, hev⟩ := h3 (List.replicate k ' ') _ tk hs (.of_op hw (ht.imp_right .inr)) ha
  have ha1 := (At.spaces hL k (ha0.cast (by simp) rfl) : At L [] _ tk0)
  obtain ⟨m1, hm1⟩ := ha1
  obtain ⟨m2, hm2⟩ := hev
  refine ⟨m1 + m2 + 2, fun m hm => ?_⟩
  obtain ⟨n, rfl⟩ : ∃ n, m = n + 2 := ⟨m - 2, by omega⟩
  have e1 : nextToken L (parser L (n + 2)).special ⟨[], List.replicate k ' ' ++ s ++ if nl then ['\n'] else []⟩ = some tk0 := by
    have := hm1 (n + 2) (by omega)
    simpa using this
  have e2 : andOr L (parser L (n + 2)) tk0 = some (.mk ps false, tk) := by
    have := hm2 (n + 2) (by omega)
    simp only at this
    simp only [andOr, parser_fuel, this]
    rcases ht with ht | ht <;> simp [ht]
  have e3 : separator L (parser L (n + 2)) tk = some (true, tk) := by
    unfold separator
    rw [if_neg (by rcases ht with ht | ht <;> simp [ht])]
  simp only [parseLineN, List.nil_append, e1, Option.bind_eq_bind, Option.bind_some]
  rw [lineLoop, if_neg (by simp [hst.newline, hst.eoi]), if_neg (by simp), e2]
  simp only [Option.bind_eq_bind, Option.bind_some, e3]
  rw [lineLoop, if_pos (by rcases ht with ht | ht <;> simp [ht])]
  simp [hr]

theorem printIndent_zero (ml : Bool) : printIndent ml 0 [] = [] := by cases ml <;> rfl

/-- A command as it is printed, as an and-or list. -/
theorem commandToWcs_eq (c : Command) (ml : Bool) :
    commandToWcs L c ml = trimEnd (printPipelines L ml 0 true [.mk [c] false false] []) ++ (if ml then ['\n'] else []) := by
  have : printPipelines L ml 0 true [.mk [c] false false] [] = printCommand L ml 0 c [] := by
    simp only [printPipelines, printPipeline, printCommands, if_true, printIndent_zero]
    rfl
  rw [this]
  cases ml
  · simp [commandToWcs]
  · rfl

/-- What is read from a text has only parts that are read back. -/
theorem parseLineN_parts (hL : LocaleOk L) {n : Nat} {s rest : List Char} {l : List AndOr} (hs : s.getLast? ≠ some '\\')
    (h : parseLineN L n s = some (l, rest)) : ListParts L l := by
  simp only [parseLineN, Option.bind_eq_bind, Option.bind_eq_some_iff] at h
  obtain ⟨tk, h1, ⟨l1, st⟩, h2, h⟩ := h
  cases h
  have hg := token_good (parser_parts hL n).special (st := ⟨[], s⟩) hs h1
  exact .of (lineLoop_good hL (parser_good hL n) _ hg h2).2 (lineLoop_parts hL (parser_parts hL n) _ hg h2)

theorem command_round (hL : LocaleOk L) {n : Nat} {s rest : List Char} {l : List AndOr} (hs : s.getLast? ≠ some '\\')
    (h : parseLineN L n s = some (l, rest)) {c : Command} (hc : CommandIn c l) (hok : CommandOk L c) (ml : Bool) :
    Ev fun m => parseLineN L m (commandToWcs L c ml) = some ([.mk [.mk [c] false false] false], []) := by
  obtain ⟨l', d, h1, h2, h3⟩ := hc
  have hrt := (parseLineN_parts hL hs h l' h1).2 d h2 c h3 hok
  rw [commandToWcs_eq]
  exact line_read hL ⟨by simp [PipeRT, hrt], _, _, _, rfl⟩ ml ml

theorem pipelines_round (hL : LocaleOk L) {n : Nat} {s rest : List Char} {l : List AndOr} (hs : s.getLast? ≠ some '\\')
    (h : parseLineN L n s = some (l, rest)) {ps : List Pipeline} {async : Bool} (ha : AndOrIn (.mk ps async) l) (hok : PipelinesOk L ps) :
    Ev fun m => parseLineN L m (pipelinesToWcs L ps) = some ([.mk ps false], []) := by
  obtain ⟨l', h1, h2⟩ := ha
  have hrt := (parseLineN_parts hL hs h l' h1).1 _ h2 hok
  have := line_read hL (ps := ps) hrt false false
  simpa [pipelinesToWcs] using this

end Yash.Parser
