import Verif.Parser.Accept
/-!
# C58: every well-formed command can be written down and is accepted
-/
set_option autoImplicit false

namespace Yash.Parser

open Syntax Spec Grammar
open Expand (Locale cLocale)

variable {L : Locale}

/-- Every command of the grammar, however deeply nested, is accepted when it is written as the shell prints it, and is read as
that command and nothing else. Missing: here-documents and backquotes (see `Grammar`). -/
theorem well_formed_command_accepted_partial (hL : LocaleOk L) {c : Command} (h : CommandG L c) (multiline : Bool) :
    parseLine L (commandToWcs L c multiline) = some ([.mk [.mk [c] false false] false], []) := by
  obtain ⟨m, hm⟩ := (show Ev fun m => parseLineN L m (commandToWcs L c multiline) = some ([.mk [.mk [c] false false] false], []) by
    rw [commandToWcs_eq]
    exact line_read hL ⟨by simp [PipeRT, h.rt hL], _, _, _, rfl⟩ multiline multiline)
  have : parseLineN L (m + (commandToWcs L c multiline).length + 2) (commandToWcs L c multiline) = some ([.mk [.mk [c] false false] false], []) :=
    hm _ (by omega)
  rwa [parse_ends hL.newline _ _ (by omega)] at this

/-- The same for pipelines connected by `&&` and `||`. -/
theorem well_formed_pipelines_accepted_partial (hL : LocaleOk L) {ps : List Pipeline} (h : ListG L [.mk ps false]) :
    parseLine L (pipelinesToWcs L ps) = some ([.mk ps false], []) := by
  obtain ⟨h1, h2, h3⟩ := h
  have hrt : AndRT L (.mk ps false) := ⟨fun
    | .mk cs neg cond, hp => ⟨h2 ps false cs neg cond (by simp) hp, fun c hc => (h3 ps false cs neg cond c (by simp) hp hc).rt hL⟩,
    h1 ps false (by simp)⟩
  obtain ⟨m, hm⟩ := line_read hL hrt false false
  have : parseLineN L (m + (pipelinesToWcs L ps).length + 2) (pipelinesToWcs L ps) = some ([.mk ps false], []) := by
    have := hm (m + (pipelinesToWcs L ps).length + 2) (by omega)
    simpa [pipelinesToWcs] using this
  rwa [parse_ends hL.newline _ _ (by omega)] at this

/-- Different commands of the grammar are written differently. -/
theorem well_formed_commands_differ_partial (hL : LocaleOk L) {c c' : Command} (h : CommandG L c) (h' : CommandG L c') {ml ml' : Bool}
    (he : commandToWcs L c ml = commandToWcs L c' ml') : c = c' := by
  have h1 := well_formed_command_accepted_partial hL h ml
  rw [he, well_formed_command_accepted_partial hL h' ml'] at h1
  cases h1
  rfl

/-! ## Examples -/

namespace Ex

instance (p : Place) (c : Char) : Decidable (Ends L p c) := by
  cases p <;> (simp only [Ends]; infer_instance)

theorem plain_pieces {p : Place} {ps : List Piece} (h : PiecesG L p false ps) (s : List Char)
    (hs : ∀ c ∈ s, ¬Ends L p c ∧ c ∉ "\\$`'\"".toList) : PiecesG L p false (s.map (fun c => .text [c]) ++ ps) := by
  induction s with
  | nil => exact h
  | cons c s ih => exact .char (hs c (by simp)).1 (hs c (by simp)).2 (ih fun d hd => hs d (by simp [hd]))

theorem join_plain (s : List Char) (acc : List Char) (ps : List Piece) :
    join acc (s.map (fun c => Piece.text [c]) ++ ps) = join (acc ++ s) ps := by
  induction s generalizing acc with
  | nil => simp
  | cons c s ih => simp [join, ih]

theorem word_plain (c : Char) (s : List Char) (hc : c ≠ '#') (hs : ∀ d ∈ c :: s, ¬Ends L .token d ∧ d ∉ "\\$`'\"".toList) :
    WordG L [.str (c :: s)] := by
  have h : join [] ((c :: s).map (fun c => Piece.text [c]) ++ []) = [.str (c :: s)] := by
    rw [join_plain]
    simp [join]
  rw [← h]
  exact .mk (plain_pieces (.nil _) (c :: s) hs) (by simp) (by simp [hc])

theorem name_x : Name cLocale (w "x") := ⟨'x', [], rfl, by decide, by decide⟩

/-- `${x##*/}` -/
def suffix : WordUnit := .param (.mk { op := .match, head := true, longest := true } (.name ['x']) [] [] [.str "*/".toList] [])

theorem suffixG : UnitG cLocale suffix :=
  .param (.name (.inr (.inr name_x))) .none (.longPrefix (ps := [.text ['*'], .text ['/']]) (plain_pieces (.nil _) "*/".toList (by decide)))
    (by simp [Ambiguous])

/-- `$x` -/
def var : WordUnit := .param (.mk {} (.name ['x']) [] [] [] [])

theorem varG : UnitG cLocale var := .param (.name (.inr (.inr name_x))) .none .plain (by simp [Ambiguous])

/-- `$(( (1+$x)*3 ))` -/
def sum : WordUnit := .arith [.str " (1+".toList, var, .str ")*3 ".toList]

theorem sumG : UnitG cLocale sum :=
  .arith (ps := [.text [' '], .text ['('], .text ['1'], .text ['+'], .unit var, .text [')'], .text ['*'], .text ['3'], .text [' ']])
    (.char (by decide) (.open (.char (by decide) (.char (by decide) (.unit varG (.close (.char (by decide) (.char (by decide)
      (.char (by decide) .nil)))))))))

/-- `"a $ b"$(( (1+$x)*3 ))` -/
def argument : Word := [.str "\"a ".toList, .str "$ b\"".toList, sum]

theorem argumentG : WordG cLocale argument :=
  .mk (ps := [.text ['"'], .text ['a'], .text [' '], .dollar, .text [' '], .text ['b'], .text ['"'], .unit sum])
    (.open (.quoted (by decide) (.quoted (by decide) (.dollar (by simp [firstChar, StartsExpansion])
      (.quoted (by decide) (.quoted (by decide) (.close (.unit sumG (.nil _)))))))))
    (by simp) (by simp)

theorem andG {c : Command} {neg b : Bool} {ps : List Pipeline}
    (h : ∀ q ∈ .mk [c] neg false :: ps, ∃ c neg cond, q = .mk [c] neg cond ∧ CommandG cLocale c) :
    ListG cLocale [.mk (.mk [c] neg false :: ps) b] := by
  refine .mk (fun ps' b' hm => ?_) (fun ps' b' cs n1 n2 hm hp => ?_) (fun ps' b' cs n1 n2 c' hm hp hc => ?_) <;> cases List.mem_singleton.1 hm
  · exact ⟨_, _, _, rfl⟩
  · obtain ⟨c1, _, _, h1, -⟩ := h _ hp
    cases h1
    simp
  · obtain ⟨c1, _, _, h1, h2⟩ := h _ hp
    cases h1
    cases List.mem_singleton.1 hc
    exact h2

theorem listG {c : Command} (h : CommandG cLocale c) : ListG cLocale (one c) :=
  andG fun q hq => ⟨c, _, _, List.mem_singleton.1 hq, h⟩

/-- `echo "a $ b"$(( (1+$x)*3 ))` -/
def echo : Command := .simple [] [] [w "echo", argument]

theorem echoG : CommandG cLocale echo := by
  refine .simple (by simp) (by simp) ?_ ?_ ?_ ?_ (by simp)
  · simp only [List.mem_cons, List.not_mem_nil, or_false, forall_eq_or_imp, forall_eq]
    exact ⟨word_plain _ _ (by decide) (by decide), argumentG⟩
  · simp only [List.mem_cons, List.not_mem_nil, or_false, forall_eq_or_imp, forall_eq]
    exact ⟨not_space (by decide), not_space (by decide)⟩
  · rintro _ ⟨⟩ ⟨n, v, us, -, h⟩
    simp only [w, List.cons.injEq, WordUnit.str.injEq] at h
    have : '=' ∈ "echo".toList := by rw [h.1]; simp
    exact absurd this (by decide)
  · rintro - _ ⟨⟩ ⟨s, hs, h⟩
    simp only [w, List.cons.injEq, WordUnit.str.injEq, and_true] at h
    subst h
    exact absurd hs (by decide)

/-- `[[ $x =~ b( |c) ]]` -/
def test : Command := .bracket [] (.binary "=~".toList [var] [.str "b".toList, .str "( |c)".toList])

theorem testG : CommandG cLocale test :=
  .compound (.bracket (.regex (.mk (ps := [.unit var]) (.unit varG (.nil _)) (by simp) (by simp))
    (by simp [var]) (by simp [var]) (by simp [var])
    (.more (w := w "b") (ps := [.text ['('], .text [' '], .text ['|'], .text ['c'], .text [')']]) (word_plain _ _ (by decide) (by decide))
      (.open (.char (by decide) (.inl (by decide)) (.char (by decide) (.inl (by decide)) (.char (by decide) (.inl (by decide)) (.close .nil)))))
      (.inl rfl) (by simp [EndsWithDollar, w, List.singleton_eq_append_iff]))) (by simp))

/-- `f() { case ${x##*/} in (a* | b) [[ $x =~ b( |c) ]] || echo "a $ b"$(( (1+$x)*3 )) ;; esac; }` -/
def function : Command :=
  .funcdef [] (w "f") (.group [] (one (.cases [] [suffix] [.mk [w "a*", w "b"] [.mk [.mk [test] false false, .mk [echo] false false] false]])))

theorem functionG : CommandG cLocale function := by
  refine .function ⟨'f', [], rfl, by decide, by decide⟩ (by decide) (.group (listG (.compound ?_)) (by simp))
  refine .case (cs := [([w "a*", w "b"], [.mk [.mk [test] false false, .mk [echo] false false] false])])
    (.mk (ps := [.unit suffix]) (.unit suffixG (.nil _)) (by simp) (by simp)) (by simp) ?_ ?_ (by simp)
  · simp only [List.mem_cons, List.not_mem_nil, or_false, forall_eq_or_imp, forall_eq]
    exact ⟨word_plain _ _ (by decide) (by decide), word_plain _ _ (by decide) (by decide)⟩
  · simp only [List.mem_cons, List.not_mem_nil, or_false, forall_eq]
    refine andG fun q hq => ?_
    simp only [List.mem_cons, List.not_mem_nil, or_false] at hq
    rcases hq with rfl | rfl
    · exact ⟨_, _, _, rfl, testG⟩
    · exact ⟨_, _, _, rfl, echoG⟩

/-- The hypothesis is met by a function with many of the constructs. -/
example : parseLine cLocale (commandToWcs cLocale function true) = some (one function, []) :=
  well_formed_command_accepted_partial cLocale_localeOk functionG true

set_option maxRecDepth 2000 in
/-- This is how it is written. -/
example : commandToWcs cLocale function false =
    "f() { case ${x##*/} in (a* | b) [[ ${x} =~ b( |c) ]] || echo \"a $ b\"$(( (1+${x})*3 )) ;; esac; }".toList := rfl

example : parseLine cLocale (pipelinesToWcs cLocale [.mk [echo] false false]) = some (one echo, []) :=
  well_formed_pipelines_accepted_partial cLocale_localeOk (listG echoG)

end Ex

end Yash.Parser
