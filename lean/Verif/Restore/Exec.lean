import Verif.Restore.Listing
/-! # The lines of a listing are executed as they were meant -/
set_option autoImplicit false

namespace Yash.Restore

open Yash.Variable
open Yash.Variable.Spec
open Yash.Restore.Spec
open Yash.Syntax Yash.Parser
open Yash.Parser.Spec
open Yash.Expand (Locale quoteAsWord lineOf expandLine Ordinary isSafe)

variable {L : Locale}

theorem NameWord.noSplit {n : List Char} (h : NameWord L n) : splitAssign L [.str n] = none := by
  obtain ⟨c, s, rfl, h2, h3⟩ := h
  have hall : ∀ d ∈ c :: s, isNameChar L d = true := fun d hd => by simpa [isNameChar] using h3 d hd
  have hsk : skipName (isNameChar L) (c :: s) = (c :: s, []) := by
    rw [skipName, if_neg (by simp [h2])]
    have h1 : (c :: s).takeWhile (isNameChar L) = c :: s := by
      have := List.takeWhile_append_of_pos (l₂ := []) hall
      simpa using this
    have h2 : (c :: s).dropWhile (isNameChar L) = [] := (dropWhile_nil_iff _).2 hall
    rw [h1, h2]
  simp only [splitAssign, hsk]

theorem builtin_nameWord (hL : LocaleOk L) (b : Builtin) : NameWord L b.name := by
  have key : ∀ b : Builtin, ∃ c s, b.name = c :: s ∧ isDigitChar c = false ∧ ∀ d ∈ b.name, 'a' ≤ d ∧ d ≤ 'z' := by
    intro b
    cases b <;> exact ⟨_, _, rfl, by decide, by decide⟩
  obtain ⟨c, s, h1, h2, h3⟩ := key b
  exact ⟨c, s, h1, h2, fun d hd => .inr (hL.lower d (h3 d hd).1 (h3 d hd).2)⟩

theorem builtin_line (hL : LocaleOk L) (b : Builtin) (ws : List (List Char × List Char)) (h : ∀ w ∈ ws, Literal L w.1 w.2) (rest : List Char) :
    parseLine L (lineOf (b.name :: ws.map (·.1)) ++ rest) =
      some (oneCommand (.simple [] [] (((b.name, b.name) :: ws).map fun w => [.str w.1])), rest) := by
  have hb := builtin_nameWord hL b
  refine words_line hL ((b.name, b.name) :: ws) ?_ (t := b.name) rfl ?_ hb.noSplit rest
  · intro w hw
    rcases List.mem_cons.1 hw with rfl | hw
    · exact hb.literal hL.ok
    · exact h w hw
  · cases b <;> decide

theorem builtin_exec (C : Config) (hL : LocaleOk C.locale) (hR : C.env.long.Ok) (b : Builtin) (ws : List (List Char × List Char))
    (h : ∀ w ∈ ws, Literal C.locale w.1 w.2) {sh sh' : Shell} {out : List Char} (hr : runBuiltin C b (ws.map (·.2)) sh = some (sh', out, true)) :
    execCommand C (.simple [] [] (((b.name, b.name) :: ws).map fun w => [.str w.1])) sh = some (sh', out) := by
  have he := expand_literals (E := C.env) hL.ok hR ((b.name, b.name) :: ws) (by
    intro w hw
    rcases List.mem_cons.1 hw with rfl | hw
    · exact (builtin_nameWord hL b).literal hL.ok
    · exact h w hw) sh
  have hn : builtinNamed b.name = some b := by cases b <;> decide
  simp only [List.map_cons] at he ⊢
  simp only [execCommand, he, hn, hr]

/-! ## The arguments -/

/-- The options that `typeset` prints, as arguments. -/
def optArgs (v : Var) : List (List Char) :=
  if v.exported || v.readonly then ['-' :: ((if v.exported then ['x'] else []) ++ (if v.readonly then ['r'] else []))] else []

theorem optionString_line (v : Var) (name operand : List Char) :
    name ++ optionString v ++ ' ' :: (operand ++ ['\n']) = lineOf (name :: (optArgs v ++ [operand])) := by
  unfold optionString optArgs
  cases v.exported <;> cases v.readonly <;> simp [lineOf]

theorem optArgs_literal (hL : LocaleOk L) (v : Var) : ∀ o ∈ optArgs v, Literal L o o := by
  have hx : ∀ c, 'a' ≤ c → c ≤ 'z' → Ordinary L c := fun c h1 h2 => by
    have hsafe : isSafe L c = true := by simp [isSafe, hL.lower c h1 h2]
    obtain ⟨h4, h5⟩ := safe_char hL.ok hsafe
    simp at h4
    exact ⟨by simp [h4], h5⟩
  have hd : Ordinary L '-' := ⟨by decide, hL.ok.punct_blank _ (by decide)⟩
  intro o ho
  unfold optArgs at ho
  split at ho
  · simp only [List.mem_singleton] at ho
    subst ho
    refine literal_chars (by simp) ?_
    intro c hc
    have : c = '-' ∨ c = 'x' ∨ c = 'r' := by
      simp only [List.mem_cons, List.mem_append] at hc
      rcases hc with h | h | h
      · exact .inl h
      · split at h
        · exact .inr (.inl (by simpa using h))
        · simp at h
      · split at h
        · exact .inr (.inr (by simpa using h))
        · simp at h
    rcases this with rfl | rfl | rfl
    · exact hd
    · exact hx _ (by decide) (by decide)
    · exact hx _ (by decide) (by decide)
  · simp at ho

theorem kind_operand (cfg : Xgetopt.Config) {a : List Char} (h : a.head? ≠ some '-') : Xgetopt.Spec.kind cfg a = .operand := by
  unfold Xgetopt.Spec.kind
  split <;> simp_all

theorem parse_operand (cfg : Xgetopt.Config) (last : Option Xgetopt.Arg) {a : List Char} (h : a.head? ≠ some '-') :
    Xgetopt.Spec.parse cfg last [a] = ⟨[], [], [a], .done⟩ := by
  simp only [Xgetopt.Spec.parse, kind_operand cfg h]
  split <;> rfl

/-- The entry of an option in the table. -/
def optOf : Char → Xgetopt.Opt
  | 'x' => ⟨'x', some "export".toList, .none, false⟩
  | _ => ⟨'r', some "readonly".toList, .none, false⟩

theorem parse_cluster (C : Config) (hp : C.posix = false) (b : Builtin) (hb : b = .typeset ∨ b = .local) (cs : List Char)
    (hcs : cs = ['x'] ∨ cs = ['r'] ∨ cs = ['x', 'r']) {arg : List Char} (h : arg.head? ≠ some '-') :
    Xgetopt.Spec.parse (C.getopt b) none ['-' :: cs, arg] = ⟨cs.map fun c => (optOf c, none), ['-' :: cs], [arg], .done⟩ := by
  have hk : Xgetopt.Spec.kind (C.getopt b) ('-' :: cs) = .short cs := by
    rcases hcs with rfl | rfl | rfl <;> simp [Xgetopt.Spec.kind, Config.getopt]
  have hc : Xgetopt.Spec.cluster (C.getopt b) none cs = .complete (cs.map fun c => (optOf c, none)) none := by
    simp only [Config.getopt, hp]
    rcases hb with rfl | rfl <;> rcases hcs with rfl | rfl | rfl <;> rfl
  rw [Xgetopt.Spec.parse]
  simp only [hk, hc, parse_operand (C.getopt b) none h, List.append_nil]

theorem run_export (C : Config) {arg : List Char} (h : arg.head? ≠ some '-') (sh : Shell) :
    typesetBuiltin C .export [arg] sh = (typesetOperand C ⟨false, true, false, false, true, false, false⟩ arg sh).map fun r => (r.1, [], r.2) := by
  simp only [typesetBuiltin, parse_operand _ _ h]
  simp [Flags.ofReports, Flags.implied, typesetMain, typesetLoop]
  cases typesetOperand C ⟨false, true, false, false, true, false, false⟩ arg sh <;> simp

theorem run_readonly (C : Config) {arg : List Char} (h : arg.head? ≠ some '-') (sh : Shell) :
    typesetBuiltin C .readonly [arg] sh = (typesetOperand C ⟨false, true, false, true, false, false, false⟩ arg sh).map fun r => (r.1, [], r.2) := by
  simp only [typesetBuiltin, parse_operand _ _ h]
  simp [Flags.ofReports, Flags.implied, typesetMain, typesetLoop]
  cases typesetOperand C ⟨false, true, false, true, false, false, false⟩ arg sh <;> simp

theorem run_typeset (C : Config) (hp : C.posix = false) (b : Builtin) (hb : b = .typeset ∨ b = .local) (v : Var) {arg : List Char}
    (h : arg.head? ≠ some '-') (sh : Shell) :
    typesetBuiltin C b (optArgs v ++ [arg]) sh =
      (typesetOperand C ⟨false, false, false, v.readonly, v.exported, false, false⟩ arg sh).map fun r => (r.1, [], r.2) := by
  have hparse : ∀ b, b = Builtin.typeset ∨ b = .local → ∃ rs, Xgetopt.Spec.parse (C.getopt b) none (optArgs v ++ [arg]) = ⟨rs, optArgs v, [arg], .done⟩ ∧
      Flags.ofReports rs = ⟨false, false, false, v.readonly, v.exported, false, false⟩ := by
    intro b hb
    unfold optArgs
    rcases hb with rfl | rfl <;> cases v.exported <;> cases v.readonly
    all_goals
      simp only [Bool.or_self, Bool.false_eq_true, if_false, if_true, Bool.or_true, Bool.true_or, List.nil_append, List.append_nil, List.cons_append]
    all_goals
      first
      | exact ⟨[], parse_operand _ _ h, rfl⟩
      | exact ⟨_, parse_cluster C hp _ (.inl rfl) _ (.inr (.inr rfl)) h, rfl⟩
      | exact ⟨_, parse_cluster C hp _ (.inl rfl) _ (.inr (.inl rfl)) h, rfl⟩
      | exact ⟨_, parse_cluster C hp _ (.inl rfl) _ (.inl rfl) h, rfl⟩
      | exact ⟨_, parse_cluster C hp _ (.inr rfl) _ (.inr (.inr rfl)) h, rfl⟩
      | exact ⟨_, parse_cluster C hp _ (.inr rfl) _ (.inr (.inl rfl)) h, rfl⟩
      | exact ⟨_, parse_cluster C hp _ (.inr rfl) _ (.inl rfl) h, rfl⟩
  obtain ⟨rs, h1, h2⟩ := hparse b hb
  simp only [typesetBuiltin, h1, h2]
  have hi : Flags.implied ⟨false, false, false, v.readonly, v.exported, false, false⟩ b = ⟨false, false, false, v.readonly, v.exported, false, false⟩ := by
    rcases hb with rfl | rfl <;> rfl
  simp [hi, typesetMain, typesetLoop]
  cases typesetOperand C ⟨false, false, false, v.readonly, v.exported, false, false⟩ arg sh <;> simp

/-- The operand of a variable. -/
def operand (n : Name) : Option (List Char) → List Char
  | some v => n ++ '=' :: v
  | none => n

theorem operand_literal (hL : LocaleOk L) {n : Name} (val : Option (List Char)) :
    Literal L (printOperand (if !isName L n then quoteAsWord L n else n) (val.map (quoteAsWord L))) (operand n val) := by
  have hn : Literal L (if !isName L n then quoteAsWord L n else n) n := by
    split
    · exact literal_quote hL.ok n
    · rename_i h
      simp at h
      exact NameWord.literal hL.ok (NameWord.of (isName_iff.1 h))
  cases val with
  | none => exact hn
  | some v =>
    have := hn.append ((literal_eq hL.ok).append (literal_quote hL.ok v))
    simpa [printOperand, operand] using this

theorem typesetOperand_operand (C : Config) (f : Flags) {n : Name} (hn : '=' ∉ n) (val : Option (List Char)) (sh : Shell) :
    typesetOperand C f (operand n val) sh = Variable.typeset C.seed sh n val ⟨f.global, f.ro, f.ex, f.unex⟩ := by
  have hall : ∀ d ∈ n, (d != '=') = true := fun d hd => by
    simp
    rintro rfl
    exact hn hd
  cases val with
  | none =>
    have h1 : n.takeWhile (· != '=') = n := by
      have := List.takeWhile_append_of_pos (l₂ := []) hall
      simpa using this
    simp only [typesetOperand, operand, h1, (dropWhile_nil_iff n).2 hall]
  | some v =>
    simp only [typesetOperand, operand]
    rw [List.takeWhile_append_of_pos hall, List.dropWhile_append_of_pos hall]
    simp

theorem operand_head {n : Name} (h : n.head? ≠ some '-') (val : Option (List Char)) : (operand n val).head? ≠ some '-' := by
  cases n with
  | nil => cases val <;> simp [operand]
  | cons c s => cases val <;> simpa [operand] using h

end Yash.Restore
