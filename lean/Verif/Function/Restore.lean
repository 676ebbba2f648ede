import Verif.Function.Props
import Verif.Function.Line
import Verif.Script.Lemmas
import Verif.Xgetopt.Known
import Verif.Parser.RoundTripProps
/-!
# C79: what is printed for functions restores them
-/
set_option autoImplicit false

namespace Yash.Function

open Yash.Syntax Yash.Parser
open Yash.Parser.Spec
open Yash.Variable (Name get put remove get_put get_remove)
open Yash.Restore (Builtin Flags isName Literal oneCommand builtin_line builtin_nameWord literal_quote quoted_single expand_literals literal_chars)
open Yash.Expand (Locale Env quoteAsWord lineOf Ordinary isSafe quoteLoop)
open Spec

variable {L : Locale}

/-! ## Names -/

/-- A name does not need quotes. -/
theorem quote_name (hL : L.Ok) {n : Name} (h : isName L n = true) : quoteAsWord L n = n := by
  obtain ⟨c, s, h1, -, h3⟩ := Yash.Restore.NameWord.isNameBy.1 h
  have hsafe : ∀ d ∈ n, isSafe L d = true := by
    intro d hd
    rcases h3 d hd with rfl | h
    · simp [isSafe]
    · simp [isSafe, h]
  have hdrop : n.dropWhile (isSafe L) = [] := (Yash.Restore.dropWhile_nil_iff _).2 hsafe
  have htake : n.takeWhile (isSafe L) = n := by
    have := List.takeWhile_append_dropWhile (p := isSafe L) (l := n)
    rwa [hdrop, List.append_nil] at this
  have hq : c ≠ '\'' := by
    rintro rfl
    have := (Yash.Restore.safe_char hL (hsafe '\'' (by rw [h1]; simp))).1
    simp at this
  subst h1
  rw [quoteAsWord, if_neg (by simp), quoteLoop, if_neg hq, dif_pos ⟨hsafe c (by simp), .inl hdrop⟩, htake, hdrop, quoteLoop]
  simp

/-- A name as it is printed. -/
def written (L : Locale) (n : Name) : List Char := if !isName L n then quoteAsWord L n else n

theorem written_eq (hL : L.Ok) (n : Name) : written L n = quoteAsWord L n := by
  unfold written
  split
  · rfl
  · rename_i h
    exact (quote_name hL (by simpa using h)).symm

theorem quote_not_dollar (hL : L.Ok) (n : Name) : quoteAsWord L n ≠ ['$'] := by
  intro h
  obtain ⟨gs, ts, h1, h2, h3, -⟩ := literal_quote hL n
  obtain ⟨gs', ts', g1, g2, g3, -⟩ := Yash.Expand.quoteAsWord_segs L n
  rw [h] at g3
  cases gs' with
  | nil => exact g1 rfl
  | cons g gs' =>
    have hg := g2 g (by simp)
    cases g with
    | chr c =>
      simp [Yash.Expand.segText] at g3
      have := (Yash.Restore.safe_char hL hg).1
      rw [g3.1] at this
      simp at this
    | sq a => simp [Yash.Expand.segText] at g3
    | bs c => simp [Yash.Expand.segText] at g3
    | dq ps => exact absurd hg id

/-! ## Executing a text -/

/-- The text is executed first and leads from one state to the other. -/
def Leads {σ : Type} (S : Script.Shell σ) (text : List Char) (s s' : σ) : Prop :=
  ∀ rest res, (∀ k, rest.length < k → Script.runLines S k rest s' = res) →
    ∀ k, (text ++ rest).length < k → Script.runLines S k (text ++ rest) s = res

theorem Leads.nil {σ : Type} (S : Script.Shell σ) (s : σ) : Leads S [] s s := fun _ _ h => by simpa using h

theorem Leads.append {σ : Type} {S : Script.Shell σ} {t1 t2 : List Char} {s1 s2 s3 : σ} (h1 : Leads S t1 s1 s2) (h2 : Leads S t2 s2 s3) :
    Leads S (t1 ++ t2) s1 s3 := by
  intro rest res h k hk
  rw [List.append_assoc] at hk ⊢
  exact h1 (t2 ++ rest) res (h2 rest res h) k hk

theorem Leads.line {σ : Type} {S : Script.Shell σ} {line : List Char} {c : Command} {s s' : σ} (hne : line ≠ []) (ha : S.active s = true)
    (hp : ∀ rest, parseLine S.locale (line ++ rest) = some (oneCommand c, rest)) (he : Script.execCommand S c s = some s') : Leads S line s s' := by
  intro rest res h k hk
  have hpos := List.length_pos_iff.2 hne
  rw [List.length_append] at hk
  obtain ⟨m, rfl⟩ : ∃ m, k = m + 1 := ⟨k - 1, by omega⟩
  rw [Script.runLines, if_neg (by simp [hne]), hp]
  simp only [oneCommand, Option.bind_eq_bind, Option.bind_some, ha, if_true, Script.execList, he]
  exact h m (by omega)

theorem Leads.run {σ : Type} {S : Script.Shell σ} {text : List Char} {s s' : σ} (h : Leads S text s s') : Script.run S text s = some s' := by
  have := h [] (some s') (fun k hk => by
    obtain ⟨m, rfl⟩ : ∃ m, k = m + 1 := ⟨k - 1, by simp at hk; omega⟩
    simp [Script.runLines]) (text.length + 1) (by simp)
  simpa [Script.run] using this

/-- What is known about the shell that executes the text. -/
structure EnvOk (C : Config) (env : Functions → Env Functions) : Prop where
  locale : LocaleOk C.locale
  same : ∀ fs, (env fs).locale = C.locale
  long : ∀ fs, (env fs).long.Ok

/-! ## One function -/

theorem definition_leads {C : Config} {env : Functions → Env Functions} (hE : EnvOk C env) {n : Name} {f : Func} (hf : Printable C.locale n f)
    {fs : Functions} (hro : ¬ReadOnly fs n) :
    Leads (shell C env) ((if !isName C.locale n then "function ".toList else []) ++ written C.locale n ++ "()\n".toList ++ commandToWcs C.locale f.body true)
      fs (put fs n ⟨f.body, false, false⟩) := by
  have hL := hE.locale
  obtain ⟨s, l, rest, hs, hparse, l', d, h1, h2, h3⟩ := hf.source
  have hrt : CmdRT C.locale f.body := (parseLineN_parts hL hs (show parseLineN C.locale _ s = _ from hparse) l' h1).2 d h2 f.body h3 hf.ok
  have hread : ∃ t, (if !isName C.locale n then "function ".toList else []) ++ written C.locale n ++ "()\n".toList ++ commandToWcs C.locale f.body true = t ++ ['\n'] ∧
      Reads C.locale t (.funcdef [] [.str (quoteAsWord C.locale n)] f.body) := by
    cases hn : isName C.locale n with
    | true =>
      obtain ⟨t, e1, e2⟩ := name_reads hL hn (hf.keyword hn) hrt hf.compound hf.plain
      refine ⟨t, ?_, by rw [quote_name hL.ok hn]; exact e2⟩
      simp only [written, hn, Bool.not_true, Bool.false_eq_true, if_false, List.nil_append]
      exact e1
    | false =>
      obtain ⟨t, e1, e2⟩ := function_reads hL (literal_quote hL.ok n) (quote_not_dollar hL.ok n) hrt hf.compound hf.plain
      refine ⟨t, ?_, e2⟩
      simp only [written, hn, Bool.not_false, if_true]
      exact e1
  obtain ⟨t, e1, e2⟩ := hread
  rw [e1]
  refine Leads.line (by simp) rfl (fun rest => ?_) (c := .funcdef [] [.str (quoteAsWord C.locale n)] f.body) ?_
  · rw [List.append_assoc]
    exact reads_line hL e2 rest
  · have hexp := quoted_single (E := env fs) (by rw [hE.same]; exact hL.ok) .single (by decide) n fs
    rw [hE.same] at hexp
    have henv : (shell C env).env = env := rfl
    simp only [Script.execCommand, henv, hexp]
    show defineFunction n f.body fs = _
    cases hd : defineFunction n f.body fs with
    | none => exact absurd (define_none.1 hd) hro
    | some fs' => rw [(define_some hd).1]

theorem f_literal (hL : LocaleOk L) (cs : List Char) (h : ∀ c ∈ cs, 'a' ≤ c ∧ c ≤ 'z') : Literal L ('-' :: cs) ('-' :: cs) := by
  refine literal_chars (by simp) fun c hc => ?_
  rcases List.mem_cons.1 hc with rfl | hc
  · exact ⟨by decide, hL.ok.punct_blank '-' (by decide)⟩
  · have ha := hL.lower c (h c hc).1 (h c hc).2
    refine ⟨fun h' => ?_, hL.ok.alnum_blank c ha⟩
    have : ∀ c ∈ "\"'\\$`\n;&|<>(){*?[~#".toList, ¬('a' ≤ c ∧ c ≤ 'z') := by decide
    exact this c h' (h c hc)

theorem parse_one (cfg : Xgetopt.Config) {n : List Char} (h : n.head? ≠ some '-') :
    Xgetopt.Spec.parse cfg none [n] = ⟨[], [], [n], .done⟩ := Yash.Restore.parse_operand cfg none h

/-- The command that makes a function read-only. -/
theorem readonly_leads {C : Config} {env : Functions → Env Functions} (hp : C.posix = false) (hE : EnvOk C env) (b : Builtin)
    (hb : b = .typeset ∨ b = .readonly) {n : Name} (hn : n.head? ≠ some '-') {fs : Functions} {f : Func} (hf : get fs n = some f) :
    Leads (shell C env) (b.name ++ (if b = .typeset then " -fr ".toList else " -f ".toList) ++ written C.locale n ++ ['\n']) fs
      (put fs n { f with readonly := true, nodelete := true }) := by
  have hL := hE.locale
  obtain ⟨cs, hcs, htext, hct, hcr, hro⟩ : ∃ cs : List Char, (cs = ['f'] ∨ cs = ['f', 'r'] ∨ cs = ['f', 'p'] ∨ cs = ['f', 'p', 'r']) ∧
      (if b = .typeset then " -fr ".toList else " -f ".toList) = ' ' :: '-' :: cs ++ [' '] ∧ (b = .typeset → cs = ['f', 'r']) ∧ (b = .readonly → cs = ['f']) ∧
      (Flags.implied ⟨true, false, cs.contains 'p', cs.contains 'r', false, false, false⟩ b).ro = true := by
    rcases hb with rfl | rfl
    · exact ⟨['f', 'r'], .inr (.inl rfl), rfl, fun _ => rfl, nofun, rfl⟩
    · exact ⟨['f'], .inl rfl, rfl, nofun, fun _ => rfl, rfl⟩
  have hline : b.name ++ (if b = .typeset then " -fr ".toList else " -f ".toList) ++ written C.locale n ++ ['\n'] =
      lineOf (b.name :: [('-' :: cs, '-' :: cs), (quoteAsWord C.locale n, n)].map (·.1)) := by
    rw [htext, written_eq hL.ok]
    simp [lineOf]
  have hlit : ∀ w ∈ [('-' :: cs, '-' :: cs), (quoteAsWord C.locale n, n)], Literal C.locale w.1 w.2 := by
    intro w hw
    simp at hw
    rcases hw with rfl | rfl
    · refine f_literal hL cs ?_
      rcases hcs with rfl | rfl | rfl | rfl <;> decide
    · exact literal_quote hL.ok n
  rw [hline]
  refine Leads.line (by rw [← hline]; simp) rfl (fun rest => builtin_line hL b _ hlit rest) ?_
  have he := expand_literals (E := env fs) (by rw [hE.same]; exact hL.ok) (hE.long fs) ((b.name, b.name) :: [('-' :: cs, '-' :: cs), (quoteAsWord C.locale n, n)]) (by
    intro w hw
    rw [hE.same]
    rcases List.mem_cons.1 hw with rfl | hw
    · exact (builtin_nameWord hL b).literal hL.ok
    · exact hlit w hw) fs
  have henv : (shell C env).env = env := rfl
  simp only [Script.execCommand, henv, he]
  obtain ⟨rs, h1, h2⟩ := parse_f C hp b hb cs hcs [n]
  have hrun : runBuiltin C [b.name, '-' :: cs, n] fs = some (put fs n { f with readonly := true, nodelete := true }, [], true) := by
    have : runBuiltin C [b.name, '-' :: cs, n] fs = typesetBuiltin C b ['-' :: cs, n] fs := by rcases hb with rfl | rfl <;> rfl
    rw [this]
    have h1' := h1
    rw [parse_one _ hn] at h1'
    simp only [typesetBuiltin, h1', List.append_nil, h2]
    have hpr : cs.contains 'p' = false := by
      rcases hb with rfl | rfl
      · have := hct rfl
        subst this; rfl
      · have := hcr rfl
        subst this; rfl
    have hm : typesetMain C b (Flags.implied ⟨true, false, cs.contains 'p', cs.contains 'r', false, false, false⟩ b) [n] fs =
        typesetLoop C.locale b (cs.contains 'p') true [n] fs := by
      rcases hb with rfl | rfl
      · have := hct rfl
        subst this
        simp [typesetMain, Flags.implied]
      · simp [typesetMain, Flags.implied]
    rw [if_neg (by simp), hm, hpr]
    simp [typesetLoop, hf]
  show (match runBuiltin C [b.name, '-' :: cs, n] fs with
    | some (fs, _, true) => some fs
    | _ => none) = _
  rw [hrun]

/-- A function as it is printed: it is defined, and made read-only if it is. -/
theorem function_leads {C : Config} {env : Functions → Env Functions} (hp : C.posix = false) (hE : EnvOk C env) (b : Builtin)
    (hb : b = .typeset ∨ b = .readonly) {n : Name} {f : Func} (hf : Printable C.locale n f) (ro : Bool) {fs : Functions} (hro : ¬ReadOnly fs n) :
    ∃ text fs', printFunction C.locale n f b ro = some text ∧ Leads (shell C env) text fs fs' ∧
      ∀ k, get fs' k = if k = n ∧ (ro = true → f.readonly = true) then some ⟨f.body, f.readonly, f.readonly⟩ else get fs k := by
  by_cases hskip : ro = true ∧ f.readonly = false
  · refine ⟨[], fs, ?_, Leads.nil _ _, fun k => ?_⟩
    · simp [printFunction, hskip]
    · rw [if_neg]
      rintro ⟨-, h⟩
      rw [h hskip.1] at hskip
      exact absurd hskip.2 (by simp)
  · have hshow : ro = true → f.readonly = true := by
      intro h
      cases hr : f.readonly with
      | true => rfl
      | false => exact absurd ⟨h, hr⟩ hskip
    have h1 := definition_leads hE hf hro
    have hcond : (ro && !f.readonly) = false := by
      cases h : ro
      · rfl
      · simp [hshow h]
    cases hr : f.readonly with
    | false =>
      refine ⟨_, _, ?_, h1, fun k => ?_⟩
      · unfold printFunction
        rw [hcond, if_neg (by simp), hr]
        rcases hb with rfl | rfl
        · exact congrArg some (List.append_nil _)
        · exact congrArg some (List.append_nil _)
      · rw [get_put]
        by_cases hk : k = n
        · rw [if_pos hk, if_pos ⟨hk, fun h => hr.symm.trans (hshow h)⟩]
        · rw [if_neg hk, if_neg fun h => hk h.1]
    | true =>
      have h2 := readonly_leads hp hE b hb (hf.option hr) (fs := put fs n ⟨f.body, false, false⟩) (f := ⟨f.body, false, false⟩) (by rw [get_put, if_pos rfl])
      refine ⟨_, _, ?_, h1.append h2, fun k => ?_⟩
      · unfold printFunction
        rw [hcond, if_neg (by simp), hr]
        rcases hb with rfl | rfl <;> rfl
      · rw [get_put, get_put]
        by_cases hk : k = n
        · rw [if_pos hk, if_pos ⟨hk, fun _ => rfl⟩]
        · rw [if_neg hk, if_neg hk, if_neg fun h => hk h.1]

/-! ## All functions -/

theorem all_lead {C : Config} {env : Functions → Env Functions} (hp : C.posix = false) (hE : EnvOk C env) (b : Builtin)
    (hb : b = .typeset ∨ b = .readonly) (ro : Bool) (es : List (Name × Func)) :
    ∀ fs : Functions, (es.map (·.1)).Nodup → (∀ e ∈ es, Printable C.locale e.1 e.2) → (∀ e ∈ es, ¬ReadOnly fs e.1) →
      ∃ text fs', printAll C.locale b ro es = some text ∧ Leads (shell C env) text fs fs' ∧
        (∀ e ∈ es, (ro = true → e.2.readonly = true) → get fs' e.1 = some ⟨e.2.body, e.2.readonly, e.2.readonly⟩) ∧
        (∀ k, (∀ e ∈ es, (ro = true → e.2.readonly = true) → e.1 ≠ k) → get fs' k = get fs k) := by
  induction es with
  | nil => intro fs _ _ _; exact ⟨[], fs, rfl, Leads.nil _ _, by simp, by simp⟩
  | cons e es ih =>
    intro fs hnd hpr hro
    obtain ⟨n, f⟩ := e
    rw [List.map_cons, List.nodup_cons] at hnd
    obtain ⟨t1, fs1, h1, h2, h3⟩ := function_leads hp hE b hb (hpr (n, f) (by simp)) ro (hro (n, f) (by simp))
    have hne : ∀ e ∈ es, e.1 ≠ n := by
      intro e he h
      exact hnd.1 (List.mem_map.2 ⟨e, he, h⟩)
    obtain ⟨t2, fs2, g1, g2, g3, g4⟩ := ih fs1 hnd.2 (fun e he => hpr e (by simp [he])) (by
      rintro e he ⟨g, hg, hgr⟩
      rw [h3, if_neg fun h => hne e he h.1] at hg
      exact hro e (by simp [he]) ⟨g, hg, hgr⟩)
    refine ⟨t1 ++ t2, fs2, by simp [printAll, h1, g1], h2.append g2, ?_, ?_⟩
    · intro e he hshow
      rcases List.mem_cons.1 he with rfl | he
      · rw [g4 n (fun e he _ => hne e he), h3, if_pos ⟨rfl, hshow⟩]
      · exact g3 e he hshow
    · intro k hk
      rw [g4 k (fun e he => hk e (by simp [he])), h3, if_neg]
      rintro ⟨rfl, h⟩
      exact hk (k, f) (by simp) h rfl

theorem entries_nodup (fs : Functions) : ((entries fs).map (·.1)).Nodup := by
  induction fs with
  | nil => simp [entries]
  | cons e fs ih =>
    show ((put (entries fs) e.1 e.2).map (·.1)).Nodup
    unfold put remove
    rw [List.map_cons, List.nodup_cons]
    refine ⟨?_, ih.sublist (List.Sublist.map _ List.filter_sublist)⟩
    intro hm
    obtain ⟨x, hx, heq⟩ := List.mem_map.1 hm
    rw [List.mem_filter] at hx
    simp at hx
    exact hx.2 heq

theorem entries_get (fs : Functions) (n : Name) : get (entries fs) n = get fs n := by
  induction fs with
  | nil => rfl
  | cons e fs ih =>
    show get (put (entries fs) e.1 e.2) n = _
    rw [get_put, Variable.get, ih]
    by_cases h : e.1 = n
    · simp [h]
    · rw [if_neg (fun h' => h h'.symm), if_neg h]

theorem mem_get (m : Functions) (h : (m.map (·.1)).Nodup) (n : Name) (v : Func) : (n, v) ∈ m ↔ get m n = some v := by
  induction m with
  | nil => simp [Variable.get]
  | cons e m ih =>
    rw [List.map_cons, List.nodup_cons] at h
    rw [Variable.get]
    by_cases he : e.1 = n
    · rw [if_pos he]
      constructor
      · intro hm
        rcases List.mem_cons.1 hm with rfl | hm
        · rfl
        · exact absurd (List.mem_map.2 ⟨_, hm, he.symm⟩) h.1
      · intro hv
        simp only [Option.some.injEq] at hv
        have : e = (n, v) := by rw [← he, ← hv]
        rw [this]
        exact List.mem_cons_self
    · rw [if_neg he, ← ih h.2, List.mem_cons]
      constructor
      · rintro (rfl | h)
        · exact absurd rfl he
        · exact h
      · exact .inr

/-- Whatever has happened, what `typeset -f` prints restores all functions, and what `readonly -f` prints restores those that are read-only: the text
is executed in any shell in which none of these functions is read-only already, and whatever the state of that shell is otherwise; afterwards the
functions that were printed have the same bodies and are read-only iff they were, and all others are as they were in that shell. -/
theorem listing_restores_partial (C : Config) (hp : C.posix = false) (hsort : ∀ es, (C.sort es).Perm es) (env : Functions → Env Functions)
    (hE : EnvOk C env) (os os0 : List Op) (b : Builtin) (hb : b = .typeset ∨ b = .readonly)
    (hpr : ∀ n f, get (after C [] os) n = some f → Printable C.locale n f)
    (hro : ∀ n f, get (after C [] os) n = some f → ¬ReadOnly (after C [] os0) n) :
    ∃ text fs', runBuiltin C [b.name, "-f".toList] (after C [] os) = some (after C [] os, text, true) ∧
      Script.run (shell C env) text (after C [] os0) = some fs' ∧
      ∀ n, get fs' n = match get (after C [] os) n with
        | some f => if b = .typeset ∨ f.readonly = true then some f else get (after C [] os0) n
        | none => get (after C [] os0) n := by
  generalize hfs : after C [] os = fs at hpr hro
  generalize after C [] os0 = fs0 at hro
  have hI : Inv fs := by rw [← hfs]; exact after_inv os Inv.nil
  have hperm := hsort (entries fs)
  have hnd : ((C.sort (entries fs)).map (·.1)).Nodup := (hperm.map _).nodup_iff.2 (entries_nodup fs)
  have hmem : ∀ n f, (n, f) ∈ C.sort (entries fs) ↔ get fs n = some f := by
    intro n f
    rw [hperm.mem_iff, mem_get _ (entries_nodup fs), entries_get]
  obtain ⟨ro, hro1, hmain⟩ : ∃ ro, (ro = true ↔ b = .readonly) ∧ runBuiltin C [b.name, "-f".toList] fs =
      (printAll C.locale b ro (C.sort (entries fs))).map fun out => (fs, out, true) := by
    obtain ⟨rs, h1, h2⟩ := parse_f C hp b hb ['f'] (.inl rfl) []
    have h3 : Xgetopt.Spec.parse (C.getopt b.options) none [] = ⟨[], [], [], .done⟩ := by rw [Xgetopt.Spec.parse]
    rw [h3] at h1
    refine ⟨(Flags.implied ⟨true, false, false, false, false, false, false⟩ b).ro, ?_, ?_⟩
    · rcases hb with rfl | rfl <;> simp [Flags.implied]
    · have : runBuiltin C [b.name, "-f".toList] fs = typesetBuiltin C b [['-', 'f']] fs := by rcases hb with rfl | rfl <;> rfl
      rw [this]
      simp only [typesetBuiltin, h1, List.append_nil, h2]
      rcases hb with rfl | rfl <;> simp [typesetMain, Flags.implied]
  obtain ⟨text, fs', h1, h2, h3, h4⟩ := all_lead hp hE b hb ro (C.sort (entries fs)) fs0 hnd
    (fun e he => hpr e.1 e.2 ((hmem _ _).1 he)) (fun e he => hro e.1 e.2 ((hmem _ _).1 he))
  refine ⟨text, fs', by rw [hmain, h1]; rfl, h2.run, fun n => ?_⟩
  have hb' : (b = .typeset) ↔ ¬ro = true := by
    rw [hro1]
    rcases hb with rfl | rfl <;> simp
  cases hn : get fs n with
  | none =>
    refine h4 n fun e he _ hk => ?_
    have := (hmem e.1 e.2).1 he
    rw [hk, hn] at this
    cases this
  | some f =>
    show get fs' n = if b = .typeset ∨ f.readonly = true then some f else get fs0 n
    have hfull : (⟨f.body, f.readonly, f.readonly⟩ : Func) = f := by
      have := hI n f hn
      cases f
      simp_all
    by_cases hc : b = .typeset ∨ f.readonly = true
    · rw [if_pos hc, h3 (n, f) ((hmem n f).2 hn) (fun hr => hc.resolve_left fun h => hb'.1 h hr)]
      exact congrArg some hfull
    · rw [if_neg hc]
      refine h4 n fun e he hshow hk => ?_
      have := (hmem e.1 e.2).1 he
      rw [hk, hn] at this
      cases this
      refine hc (.inr (hshow ?_))
      cases hr : ro with
      | true => rfl
      | false => exact absurd (.inl (hb'.2 (by simp [hr]))) hc

theorem print_some (L : Locale) (n : Name) (f : Func) {b : Builtin} (hb : b = .typeset ∨ b = .readonly) (ro : Bool) : ∃ t, printFunction L n f b ro = some t := by
  unfold printFunction
  split
  · exact ⟨_, rfl⟩
  · rcases hb with rfl | rfl <;> exact ⟨_, rfl⟩

theorem printAll_some (L : Locale) {b : Builtin} (hb : b = .typeset ∨ b = .readonly) (ro : Bool) (es : List (Name × Func)) :
    ∃ t, printAll L b ro es = some t := by
  induction es with
  | nil => exact ⟨_, rfl⟩
  | cons e es ih =>
    obtain ⟨n, f⟩ := e
    obtain ⟨t1, h1⟩ := print_some L n f hb ro
    obtain ⟨t2, h2⟩ := ih
    exact ⟨t1 ++ t2, by simp [printAll, h1, h2]⟩

theorem typesetLoop_some (L : Locale) {b : Builtin} (hb : b = .typeset ∨ b = .readonly) (p ro : Bool) (ns : List Name) :
    ∀ fs, ∃ r, typesetLoop L b p ro ns fs = some r := by
  induction ns with
  | nil => intro fs; exact ⟨_, rfl⟩
  | cons n ns ih =>
    intro fs
    rw [typesetLoop]
    obtain ⟨⟨fs1, t1, ok1⟩, h1⟩ := ih fs
    split
    · rename_i f _
      obtain ⟨t, ht⟩ := print_some L n f hb ro
      split
      · split
        · exact ⟨(fs1, t ++ t1, ok1), by simp [ht, h1]⟩
        · exact ⟨_, h1⟩
      · split
        · exact ih _
        · exact ⟨_, h1⟩
    · exact ⟨(fs1, t1, false), by simp [h1]⟩

/-- No command makes `print_function` fail its assertion: a command of the `typeset` family that is about functions ends, with or without an error. -/
theorem function_commands_end (C : Config) (b : Builtin) (hb : b ≠ .array ∧ b ≠ .set) (args : List (List Char)) (fs : Functions)
    (hf : (Flags.ofReports (Xgetopt.Spec.parse (C.getopt b.options) none args).reports).function = true)
    (hh : (Flags.ofReports (Xgetopt.Spec.parse (C.getopt b.options) none args).reports).help = false) : ∃ r, typesetBuiltin C b args fs = some r := by
  simp only [typesetBuiltin, hh]
  rw [if_neg (by simp)]
  split
  · exact ⟨_, rfl⟩
  · unfold typesetMain
    cases b with
    | array => exact absurd rfl hb.1
    | set => exact absurd rfl hb.2
    | «local» =>
      exfalso
      simp only [Flags.ofReports, List.any_eq_true, beq_iff_eq] at hf
      obtain ⟨r, hr, hs⟩ := hf
      have := Xgetopt.reports_known _ args.length args (Nat.le_refl _) none r hr
      simp only [Config.getopt, Builtin.options, Yash.Restore.typesetOptions, List.drop, List.mem_cons, List.not_mem_nil, or_false] at this
      rcases this with h | h | h | h | h <;> rw [h] at hs <;> revert hs <;> decide
    | «export» =>
      have he : ∀ f : Flags, (f.implied .export).ex = true ∨ (f.implied .export).unex = true := by
        intro f
        cases h : f.unex <;> simp [Flags.implied, h]
      generalize hg : (Flags.ofReports (Xgetopt.Spec.parse (C.getopt Builtin.export.options) none args).reports) = g at hf
      have hf' : (g.implied .export).function = true := hf
      rw [if_neg (by simp)]
      rcases he g with h | h
      · rw [if_pos (by simp [hf', h])]; exact ⟨_, rfl⟩
      · rw [hf', h]
        split
        · exact ⟨_, rfl⟩
        · exact ⟨_, rfl⟩
    | typeset =>
      generalize hg : (Flags.ofReports (Xgetopt.Spec.parse (C.getopt Builtin.typeset.options) none args).reports) = g at hf
      have hf' : (g.implied .typeset).function = true := hf
      obtain ⟨t, ht⟩ := printAll_some C.locale (.inl rfl : Builtin.typeset = .typeset ∨ _) (g.implied .typeset).ro (C.sort (entries fs))
      simp only [hf', ht]
      repeat' split
      all_goals first
        | exact ⟨_, rfl⟩
        | exact typesetLoop_some C.locale (.inl rfl) _ _ _ _
        | (rename_i h; simp at h)
    | readonly =>
      generalize hg : (Flags.ofReports (Xgetopt.Spec.parse (C.getopt Builtin.readonly.options) none args).reports) = g at hf
      have hf' : (g.implied .readonly).function = true := hf
      obtain ⟨t, ht⟩ := printAll_some C.locale (.inr rfl : Builtin.readonly = .typeset ∨ _) (g.implied .readonly).ro (C.sort (entries fs))
      simp only [hf', ht]
      repeat' split
      all_goals first
        | exact ⟨_, rfl⟩
        | exact typesetLoop_some C.locale (.inr rfl) _ _ _ _
        | (rename_i h; simp at h)

/-! ## Examples -/

namespace Ex

def demoEnv : Functions → Env Functions := fun _ => {
  posix := false, unsetOk := true, braceexpand := true, glob := true, nullglob := true, emptylast := false, locale := Yash.Expand.cLocale, long := Yash.Expand.long64,
  chars := Fnmatch.asciiLocale, getvar := fun _ _ => none, get := fun _ _ => .notFound, dirEntry := fun _ _ => none, homeOf := fun _ => none, set := fun s _ _ => (s, true),
  setElement := fun s _ _ _ => (s, true), cmdsub := fun s _ => (s, some []), arith := fun s _ => (s, some []), index := fun s _ => (s, some 1), isName := fun _ => true,
  wglob := fun _ _ => [['f']] }

theorem demoEnv_ok : EnvOk C demoEnv := ⟨cLocale_localeOk, fun _ => rfl, fun _ => Yash.Expand.long64_ok⟩

def g : Name := "g h".toList

/-- `f() { for i in …; }`, `function 'g h'() { … }`, `readonly -f 'g h'`. -/
def history : List Op := [.define f Parser.Ex.body, .define g Parser.Ex.body, .command ["readonly".toList, "-f".toList, "--".toList, g]]

theorem body_printable {n : Name} {x : Func} (hx : x.body = Parser.Ex.body) (hk : n ∉ keywords) (ho : n.head? ≠ some '-') : Printable C.locale n x where
  source := ⟨_, _, _, by decide, Parser.Ex.source_read, by rw [hx]; exact Parser.Ex.bodyIn⟩
  ok := by rw [hx]; exact Parser.Ex.bodyOk
  compound := by rw [hx]; nofun
  plain := by rw [hx]; exact id
  keyword := fun _ => hk
  option := fun _ => ho

/-- Two functions, one of them with a name that must be quoted and read-only, are restored in a shell that has another function `f`. -/
example : ∃ text fs', runBuiltin C ["typeset".toList, "-f".toList] (after C [] history) = some (after C [] history, text, true) ∧
    Script.run (shell C demoEnv) text (after C [] [.define f (body "a")]) = some fs' ∧ getFunction f fs' = some Parser.Ex.body ∧ ReadOnly fs' g := by
  have hfin : after C [] history = [(g, ⟨Parser.Ex.body, true, true⟩), (f, ⟨Parser.Ex.body, false, false⟩)] := by
    have hr : runBuiltin C ["readonly".toList, "-f".toList, "--".toList, g] [(g, ⟨Parser.Ex.body, false, false⟩), (f, ⟨Parser.Ex.body, false, false⟩)] =
        some ([(g, ⟨Parser.Ex.body, true, true⟩), (f, ⟨Parser.Ex.body, false, false⟩)], [], true) := by
      obtain ⟨rs, h1, h2⟩ := parse_f C rfl .readonly (.inr rfl) ['f'] (.inl rfl) ["--".toList, g]
      show typesetBuiltin C .readonly [['-', 'f'], "--".toList, g] _ = _
      have h3 : Xgetopt.Spec.parse (C.getopt Builtin.readonly.options) none ["--".toList, g] = ⟨[], ["--".toList], [g], .done⟩ := parse_sep _ none [g]
      rw [h3] at h1
      simp only [typesetBuiltin, h1, List.append_nil, h2]
      rfl
    have hd : after C [] [.define f Parser.Ex.body, .define g Parser.Ex.body] = [(g, ⟨Parser.Ex.body, false, false⟩), (f, ⟨Parser.Ex.body, false, false⟩)] := rfl
    have : history = [.define f Parser.Ex.body, .define g Parser.Ex.body] ++ [.command ["readonly".toList, "-f".toList, "--".toList, g]] := rfl
    rw [this, after_append, hd]
    simp only [after, Spec.step, hr]
  obtain ⟨text, fs', h1, h2, h3⟩ := listing_restores_partial C rfl (fun _ => List.Perm.refl _) demoEnv demoEnv_ok history [.define f (body "a")] .typeset (.inl rfl) (by
    intro n x hx
    rw [hfin] at hx
    by_cases h1 : g = n
    · subst h1
      cases hx
      exact body_printable rfl (by decide) (by decide)
    · by_cases h2 : f = n
      · subst h2
        cases hx
        exact body_printable rfl (by decide) (by decide)
      · simp [Variable.get, h1, h2] at hx) (by
    rintro n x - ⟨y, h1, h2⟩
    have : after C [] [.define f (body "a")] = [(f, ⟨body "a", false, false⟩)] := rfl
    rw [this] at h1
    by_cases h : f = n
    · simp [Variable.get, h] at h1
      rw [← h1] at h2
      cases h2
    · simp [Variable.get, h] at h1)
  refine ⟨text, fs', h1, h2, ?_, ?_⟩
  · rw [getFunction, h3, hfin]
    rfl
  · refine ⟨⟨Parser.Ex.body, true, true⟩, ?_, rfl⟩
    rw [h3, hfin]
    rfl

/-- `typeset -f` and `export -f` end. -/
example : ∃ r, typesetBuiltin C .export [['-', 'f']] (after C [] history) = some r :=
  function_commands_end C .export (by decide) _ _ (by decide +kernel) (by decide +kernel)

end Ex

/-! ## What is not restored -/

namespace Ex

def oneFunction (n : String) (ro : Bool) : Functions := [(n.toList, ⟨body "a", ro, ro⟩)]

/-- `function if { a; }` defines a function whose name is a keyword. It is printed as `if()`, which is a syntax error. -/
theorem keyword_lost :
    Parser.parseLine C.locale "function if { a; }\n".toList = some (oneCommand (.funcdef [] [.str "if".toList] (body "a")), []) ∧
    after C [] [.define "if".toList (body "a")] = oneFunction "if" false ∧
    printAll C.locale .typeset false (entries (oneFunction "if" false)) = some "if()\n{\n   a\n}\n".toList ∧
    Parser.parseLine C.locale "if()\n{\n   a\n}\n".toList = none :=
  ⟨by rfl, by rfl, by rfl, by decide +kernel⟩

/-- A read-only function whose name begins with a hyphen is printed with a command that takes the name for an option: the function is not made
read-only again. -/
theorem hyphen_lost (fs : Functions) :
    printAll C.locale .typeset false (entries (oneFunction "-x" true)) = some "function -x()\n{\n   a\n}\ntypeset -fr -x\n".toList ∧
    runBuiltin C ["typeset".toList, "-fr".toList, "-x".toList] fs = some (fs, [], false) := by
  refine ⟨by decide +kernel, ?_⟩
  obtain ⟨rs, h1, h2⟩ := parse_f C rfl .typeset (.inl rfl) ['f', 'r'] (.inr (.inl rfl)) ["-x".toList]
  have h3 : Xgetopt.Spec.parse (C.getopt Builtin.typeset.options) none ["-x".toList] = ⟨[(⟨'x', some "export".toList, .none, false⟩, none)], ["-x".toList], [], .done⟩ := by
    rw [Xgetopt.Spec.parse]
    rfl
  rw [h3] at h1
  show typesetBuiltin C .typeset [['-', 'f', 'r'], "-x".toList] fs = _
  simp only [typesetBuiltin, h1]
  have : Flags.ofReports (rs ++ [(⟨'x', some "export".toList, .none, false⟩, none)]) = ⟨true, false, false, true, true, false, false⟩ := by
    have e := h2
    simp only [Flags.ofReports] at e ⊢
    simp only [Flags.mk.injEq, List.any_append] at e ⊢
    obtain ⟨e1, e2, e3, e4, e5, e6, e7⟩ := e
    rw [e1, e2, e3, e4, e5, e6, e7]
    decide
  rw [this]
  rfl

end Ex

end Yash.Function
