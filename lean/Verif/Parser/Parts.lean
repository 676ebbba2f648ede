import Verif.Parser.Good
/-!
# The parts of what the parser reads are read back, too
-/
set_option autoImplicit false

namespace Yash.Parser

open Syntax Spec
open Expand (Locale)

variable {L : Locale} {R : Rec}

/-- Every list that occurs in the list is read back, as far as it has none of the known defects. -/
def ListParts (L : Locale) (l : List AndOr) : Prop :=
  ∀ l', ListIn l' l → (∀ a ∈ l', AndOrOk L a → AndRT L a) ∧ ∀ d, CommandOf d l' → ∀ c, Body c d → CommandOk L c → CmdRT L c

def CommandParts (L : Locale) (d : Command) : Prop :=
  (∀ c, Body c d → CommandOk L c → CmdRT L c) ∧ ∀ l, Block l d → ListParts L l

/-- The functions for nested constructs give what is read back, with its parts. -/
structure GoodParts (L : Locale) (R : Rec) : Prop extends GoodRec L R where
  lists : ∀ tk l tk', TokGood L tk → R.list tk = some (l, tk') → ListParts L l
  bodies : ∀ tk c tk', TokGood L tk → R.compound tk = some (some c, tk') → CommandParts L c

theorem ListParts.of {l : List AndOr} (h1 : ∀ a ∈ l, AndOrOk L a → AndRT L a) (h2 : ∀ d, CommandOf d l → CommandParts L d) : ListParts L l := by
  intro l' h
  cases h with
  | self => exact ⟨h1, fun d hd => (h2 d hd).1⟩
  | inner hc hb hi => exact (h2 _ hc).2 _ hb _ hi

/-- A command that is not a function, made of lists. -/
theorem CommandParts.of {d : Command} (h1 : CommandOk L d → CmdRT L d) (h2 : ∀ l, Block l d → ListParts L l)
    (h3 : ∀ rs name c, d ≠ .funcdef rs name c) : CommandParts L d := by
  refine ⟨fun c hc => ?_, h2⟩
  cases hc with
  | self => exact h1
  | function rs name h => exact absurd rfl (h3 rs name _)

theorem functionBody_parts (hL : LocaleOk L) (hR : GoodParts L R) {name : Word} {tk tk' : Token} {c : Command} (hg : TokGood L tk)
    (hname : WordOk L name → ItemWord L name) (h : functionBody L R name tk = some (c, tk')) : CommandParts L c := by
  have hgood := functionBody_good hL hR.toGoodRec hg hname h
  simp only [functionBody, Option.bind_eq_bind, Option.bind_eq_some_iff] at h
  obtain ⟨tk1, h1, h⟩ := h
  split at h
  · rename_i body tk2 hc
    cases h
    obtain ⟨g1, g2⟩ := hR.bodies _ _ _ (newlines_good hR.toGoodRec hg h1) hc
    refine ⟨fun c hc => ?_, fun l hl => ?_⟩
    · cases hc with
      | self => exact fun hok => (hgood.2.2.2 hok).1
      | function _ _ h => exact g1 _ h
    · cases hl with
      | function _ _ h => exact g2 _ h
  · cases h

/-- The lists of a clause have their parts read back. -/
def ClauseParts (L : Locale) : IfClause → Prop
  | .cond c l => ListParts L c ∧ ListParts L l
  | .els l => ListParts L l

theorem ifClause_parts {c b : List AndOr} (hc : ListParts L c) (hb : ListParts L b) : ClauseParts L (ifClause c b) := by
  unfold ifClause
  cases c with
  | nil => exact hb
  | cons a c => exact ⟨hc, hb⟩

theorem ifLoop_parts (hR : GoodParts L R) (n : Nat) {tk tk' : Token} {cs : List IfClause} (hg : TokGood L tk)
    (h : ifLoop L R n tk = some (cs, tk')) : ∀ c ∈ cs, ClauseParts L c := by
  have hR' := hR.toGoodRec
  induction n generalizing tk tk' cs with
  | zero => simp [ifLoop] at h
  | succ n ih =>
    simp only [ifLoop, Option.bind_eq_bind, Option.bind_eq_some_iff] at h
    obtain ⟨⟨c, tk1⟩, h1, tk2, h2, ⟨b, tk3⟩, h3, h⟩ := h
    have hg1 := (hR.list _ _ _ hg h1).1
    have hg2 := (expect_good hR' hg1 h2).1
    have hg3 := (hR.list _ _ _ hg2 h3).1
    have hcl := ifClause_parts (hR.lists _ _ _ hg h1) (hR.lists _ _ _ hg2 h3)
    split at h
    · simp only [Option.bind_eq_some_iff] at h
      obtain ⟨tk4, h4, ⟨e, tk5⟩, h5, tk6, h6, h⟩ := h
      cases h
      intro c' hc'
      simp at hc'
      rcases hc' with rfl | rfl
      · exact hcl
      · exact hR.lists _ _ _ (next_good hR' hg3 h4) h5
    · split at h
      · simp only [Option.bind_eq_some_iff] at h
        obtain ⟨tk4, h4, ⟨cs1, tk5⟩, h5, h⟩ := h
        cases h
        intro c' hc'
        rcases List.mem_cons.1 hc' with rfl | hc'
        · exact hcl
        · exact ih (next_good hR' hg3 h4) h5 _ hc'
      · simp only [Option.bind_eq_some_iff] at h
        obtain ⟨tk4, h4, h⟩ := h
        cases h
        intro c' hc'
        simp at hc'
        subst hc'
        exact hcl

theorem caseLoop_parts (hR : GoodParts L R) (n : Nat) {tk tk' : Token} {cs : List CaseItem} (hg : TokGood L tk)
    (h : caseLoop L R n tk = some (cs, tk')) : ∀ ps l, .mk ps l ∈ cs → ListParts L l := by
  have hR' := hR.toGoodRec
  induction n generalizing tk tk' cs with
  | zero => simp [caseLoop] at h
  | succ n ih =>
    simp only [caseLoop, Option.bind_eq_bind, Option.bind_eq_some_iff] at h
    obtain ⟨tk1, h1, h⟩ := h
    have hg1 := newlines_good hR' hg h1
    split at h
    · cases h
      simp
    · simp only [Option.bind_eq_some_iff] at h
      obtain ⟨⟨ps, tk2⟩, h2, ⟨l, tk3⟩, h3, h⟩ := h
      have hg2 : TokGood L tk2 := by
        unfold patterns at h2
        split at h2
        · simp only [Option.bind_eq_bind, Option.bind_eq_some_iff] at h2
          obtain ⟨tk1', h1', h2⟩ := h2
          exact (patternsLoop_good hR' _ (next_good hR' hg1 h1') h2).1
        · exact (patternsLoop_good hR' _ hg1 h2).1
      have hg3 := (hR.list _ _ _ hg2 h3).1
      have hitem := hR.lists _ _ _ hg2 h3
      split at h
      · simp only [Option.bind_eq_some_iff] at h
        obtain ⟨tk4, h4, ⟨cs1, tk5⟩, h5, h⟩ := h
        cases h
        intro ps' l' hc
        rcases List.mem_cons.1 hc with hc | hc
        · cases hc
          exact hitem
        · exact ih (next_good hR' hg3 h4) h5 _ _ hc
      · cases h
        intro ps' l' hc
        simp at hc
        cases hc.1
        cases hc.2
        exact hitem

theorem compoundHead_parts (hL : LocaleOk L) (hR : GoodParts L R) {tk tk' : Token} {c : Command} (hg : TokGood L tk)
    (h : compoundHead L R tk = some (some (c, tk'))) :
    (∀ rs, ∀ l, Block l (withRedirs rs c) → ListParts L l) ∧
      ∀ rs name d, c = .funcdef rs name d → isRedirTok tk'.type = false ∧ rs = [] ∧ CommandParts L c := by
  have hR' := hR.toGoodRec
  have hgroup : ∀ c tk', group L R tk = some (c, tk') → (∀ rs, ∀ l, Block l (withRedirs rs c) → ListParts L l) ∧
      ∀ rs name d, c = .funcdef rs name d → isRedirTok tk'.type = false ∧ rs = [] ∧ CommandParts L c := by
    intro c tk' h
    simp only [group, Option.bind_eq_bind, Option.bind_eq_some_iff] at h
    obtain ⟨tk1, h1, ⟨l, tk2⟩, h2, h⟩ := h
    have hp := hR.lists _ _ _ (next_good hR' hg h1) h2
    split at h
    · simp only [Option.bind_eq_some_iff] at h
      obtain ⟨tk3, h3, h⟩ := h
      cases h
      refine ⟨fun rs l' hl' => ?_, by simp⟩
      simp only [withRedirs] at hl'
      cases hl'
      exact hp
    · simp only [Option.bind_eq_some_iff] at h
      obtain ⟨tk3, h3, h⟩ := h
      cases h
      refine ⟨fun rs l' hl' => ?_, by simp⟩
      simp only [withRedirs] at hl'
      cases hl'
      exact hp
  have hwhile : ∀ c tk', whileCommand L R tk = some (c, tk') → (∀ rs, ∀ l, Block l (withRedirs rs c) → ListParts L l) ∧
      ∀ rs name d, c = .funcdef rs name d → isRedirTok tk'.type = false ∧ rs = [] ∧ CommandParts L c := by
    intro c tk' h
    simp only [whileCommand, Option.bind_eq_bind, Option.bind_eq_some_iff] at h
    obtain ⟨tk1, h1, ⟨c1, tk2⟩, h2, tk3, h3, ⟨l, tk4⟩, h4, tk5, h5, h⟩ := h
    cases h
    have hg2 := (hR.list _ _ _ (next_good hR' hg h1) h2).1
    refine ⟨fun rs l' hl' => ?_, by simp⟩
    simp only [withRedirs] at hl'
    cases hl'
    · exact hR.lists _ _ _ (next_good hR' hg h1) h2
    · exact hR.lists _ _ _ (expect_good hR' hg2 h3).1 h4
  unfold compoundHead at h
  split at h
  case h_1 =>
    simp only [Option.map_eq_some_iff, Option.some.injEq] at h
    obtain ⟨⟨c1, tk1⟩, h1, h2⟩ := h
    cases h2
    exact hgroup _ _ h1
  case h_2 =>
    simp only [Option.map_eq_some_iff, Option.some.injEq] at h
    obtain ⟨⟨c1, tk1⟩, h1, h2⟩ := h
    cases h2
    exact hgroup _ _ h1
  case h_3 =>
    simp only [Option.map_eq_some_iff, Option.some.injEq] at h
    obtain ⟨⟨c1, tk1⟩, h1, h2⟩ := h
    cases h2
    simp only [ifCommand, Option.bind_eq_bind, Option.bind_eq_some_iff] at h1
    obtain ⟨tk2, h2, ⟨cs, tk3⟩, h3, h⟩ := h1
    cases h
    have hp := ifLoop_parts hR _ (next_good hR' hg h2) h3
    refine ⟨fun rs l' hl' => ?_, by simp⟩
    simp only [withRedirs] at hl'
    cases hl' with
    | ifCond hm => exact (hp _ hm).1
    | ifThen hm => exact (hp _ hm).2
    | ifElse hm => exact hp _ hm
  case h_4 =>
    simp only [Option.map_eq_some_iff, Option.some.injEq] at h
    obtain ⟨⟨c1, tk1⟩, h1, h2⟩ := h
    cases h2
    simp only [forCommand, Option.bind_eq_bind, Option.bind_eq_some_iff] at h1
    obtain ⟨tk1, h1, h⟩ := h1
    split at h
    · simp only [Option.bind_eq_some_iff] at h
      obtain ⟨tk2, h2, tk3, h3, ⟨ws, tk4⟩, h4, tk5, h5, tk6, h6, ⟨l, tk7⟩, h7, tk8, h8, h⟩ := h
      cases h
      have hg1 := next_good hR' hg h1
      have hg4 := (forWords_good hR' (newlines_good hR' (next_good hR' hg1 h2) h3) h4).1
      refine ⟨fun rs l' hl' => ?_, by simp⟩
      simp only [withRedirs] at hl'
      cases hl'
      exact hR.lists _ _ _ (expect_good hR' (newlines_good hR' hg4 h5) h6).1 h7
    · cases h
  case h_5 =>
    simp only [Option.map_eq_some_iff, Option.some.injEq] at h
    obtain ⟨⟨c1, tk1⟩, h1, h2⟩ := h
    cases h2
    simp only [function, Option.bind_eq_bind, Option.bind_eq_some_iff] at h1
    obtain ⟨tk1, h1, h⟩ := h1
    have hg1 := next_good hR' hg h1
    split at h
    · cases h
    · rename_i hne
      simp only [Option.bind_eq_some_iff] at h
      obtain ⟨tk2, h2, h⟩ := h
      have hg2 := next_good hR' hg1 h2
      have hname := hg1.item (by simpa using hne)
      have hfin : ∀ tk3, TokGood L tk3 → functionBody L R tk1.word tk3 = some (c, tk') →
          (∀ rs, ∀ l, Block l (withRedirs rs c) → ListParts L l) ∧
          ∀ rs name d, c = .funcdef rs name d → isRedirTok tk'.type = false ∧ rs = [] ∧ CommandParts L c := by
        intro tk3 hg3 h3
        have hp := functionBody_parts hL hR hg3 hname h3
        obtain ⟨g1, g2, ⟨body, rfl⟩, g4⟩ := functionBody_good hL hR' hg3 hname h3
        refine ⟨fun rs l hl => ?_, fun rs name d hd => ?_⟩
        · simp only [withRedirs] at hl
          cases hl with
          | function _ _ h => exact hp.2 _ (.function _ _ h)
        · cases hd
          exact ⟨g2, rfl, hp⟩
      split at h
      · simp only [Option.bind_eq_some_iff] at h
        obtain ⟨tk3, h3, h⟩ := h
        split at h
        · simp only [Option.bind_eq_some_iff] at h
          obtain ⟨tk4, h4, h⟩ := h
          exact hfin _ (next_good hR' (next_good hR' hg2 h3) h4) h
        · exact hfin _ hg2 h
      · exact hfin _ hg2 h
  case h_6 =>
    simp only [Option.map_eq_some_iff, Option.some.injEq] at h
    obtain ⟨⟨c1, tk1⟩, h1, h2⟩ := h
    cases h2
    exact hwhile _ _ h1
  case h_7 =>
    simp only [Option.map_eq_some_iff, Option.some.injEq] at h
    obtain ⟨⟨c1, tk1⟩, h1, h2⟩ := h
    cases h2
    exact hwhile _ _ h1
  case h_8 =>
    simp only [Option.map_eq_some_iff, Option.some.injEq] at h
    obtain ⟨⟨c1, tk1⟩, h1, h2⟩ := h
    cases h2
    simp only [caseCommand, Option.bind_eq_bind, Option.bind_eq_some_iff] at h1
    obtain ⟨tk1, h1, h⟩ := h1
    have hg1 := next_good hR' hg h1
    split at h
    · cases h
    · simp only [Option.bind_eq_some_iff] at h
      obtain ⟨tk2, h2, tk3, h3, tk4, h4, ⟨cs, tk5⟩, h5, tk6, h6, h⟩ := h
      cases h
      refine ⟨fun rs l' hl' => ?_, by simp⟩
      simp only [withRedirs] at hl'
      cases hl' with
      | case hm => exact caseLoop_parts hR _ (expect_good hR' (newlines_good hR' (next_good hR' hg1 h2) h3) h4).1 h5 _ _ hm
  case h_9 =>
    simp only [Option.map_eq_some_iff, Option.some.injEq] at h
    obtain ⟨⟨c1, tk1⟩, h1, h2⟩ := h
    cases h2
    simp only [bracket, Option.bind_eq_bind, Option.bind_eq_some_iff] at h1
    obtain ⟨tk1, h1, ⟨e, tk2⟩, h2, h⟩ := h1
    split at h
    · simp only [Option.bind_eq_some_iff] at h
      obtain ⟨tk3, h3, h⟩ := h
      cases h
      refine ⟨fun rs l' hl' => ?_, by simp⟩
      simp only [withRedirs] at hl'
      cases hl'
    · cases h
  case h_10 => cases h

theorem compound_parts (hL : LocaleOk L) (hR : GoodParts L R) {tk tk' : Token} {c : Command} (hg : TokGood L tk)
    (h : compound L R tk = some (some c, tk')) : CommandParts L c := by
  have hR' := hR.toGoodRec
  have hgood := (compound_good hL hR' hg h).2.2 c rfl
  unfold compound at h
  split at h
  · cases h
  · cases h
  · rename_i c1 tk1 h1
    simp only [Option.bind_eq_bind, Option.bind_eq_some_iff] at h
    obtain ⟨⟨rs, tk2⟩, h2, h⟩ := h
    obtain ⟨hp1, hp2⟩ := compoundHead_parts hL hR hg h1
    obtain ⟨-, -, -, h6⟩ := redirsLoop_good hL hR' _ (compoundHead_good hL hR' hg h1).1 h2
    cases h
    by_cases hf : ∃ rs name d, c1 = .funcdef rs name d
    · obtain ⟨rs1, name, d, rfl⟩ := hf
      obtain ⟨k1, rfl, k2⟩ := hp2 _ _ _ rfl
      rw [h6 k1]
      exact k2
    · refine CommandParts.of (fun hok => (hgood.2 hok).1) (hp1 rs) fun rs' name d he => hf ?_
      cases c1 <;> simp only [withRedirs] at he <;> first | exact ⟨_, _, _, rfl⟩ | cases he

theorem command_parts (hL : LocaleOk L) (hR : GoodParts L R) {tk tk' : Token} {c : Command} (hg : TokGood L tk)
    (h : command L R tk = some (c, tk')) : CommandParts L c := by
  have hR' := hR.toGoodRec
  have hgood := (command_good hL hR' hg h).2
  unfold command at h
  split at h
  · cases h
  · split at h
    · cases h
    · rename_i c1 tk1 h1
      cases h
      exact compound_parts hL hR hg h1
    · rename_i tk1 h1
      obtain ⟨h2, h3, -⟩ := compound_good hL hR' hg h1
      have := h3 rfl
      subst this
      simp only [Option.bind_eq_bind, Option.bind_eq_some_iff] at h
      obtain ⟨⟨S, tk2⟩, h4, h⟩ := h
      obtain ⟨h5, h6, h7, h8, h9⟩ := simpleLoop_good hL hR' _ hg h4
      split at h
      · cases h
      · unfold tryFunction at h
        split at h
        · split at h
          · rename_i name hS
            simp only at hS
            split at h
            · simp only [Option.bind_eq_bind, Option.bind_eq_some_iff] at h
              obtain ⟨tk3, h10, tk4, h11, h⟩ := h
              have hg4 := (expect_good hR' (next_good hR' h5 h10) h11).1
              exact functionBody_parts hL hR hg4 (h8 name (by rw [hS]; simp)) h
            · cases h
          · cases h
        · cases h
          refine CommandParts.of hgood (fun l hl => ?_) (by simp)
          cases hl

theorem commandsLoop_parts (hL : LocaleOk L) (hR : GoodParts L R) (n : Nat) {tk tk' : Token} {cs : List Command} (hg : TokGood L tk)
    (h : commandsLoop L R n tk = some (cs, tk')) : ∀ c ∈ cs, CommandParts L c := by
  have hR' := hR.toGoodRec
  induction n generalizing tk tk' cs with
  | zero => simp [commandsLoop] at h
  | succ n ih =>
    simp only [commandsLoop, Option.bind_eq_bind, Option.bind_eq_some_iff] at h
    obtain ⟨⟨c, tk1⟩, h1, h⟩ := h
    have hg1 := (command_good hL hR' hg h1).1
    have hc := command_parts hL hR hg h1
    split at h
    · simp only [Option.bind_eq_some_iff] at h
      obtain ⟨tk2, h2, tk3, h3, ⟨cs1, tk4⟩, h4, h⟩ := h
      cases h
      intro c' hc'
      rcases List.mem_cons.1 hc' with rfl | hc'
      · exact hc
      · exact ih (newlines_good hR' (next_good hR' hg1 h2) h3) h4 _ hc'
    · cases h
      intro c' hc'
      simp at hc'
      subst hc'
      exact hc

theorem pipeline_parts (hL : LocaleOk L) (hR : GoodParts L R) {cond : Bool} {tk tk' : Token} {p : Pipeline} (hg : TokGood L tk)
    (h : pipeline L R cond tk = some (p, tk')) : ∀ cs neg cond', p = .mk cs neg cond' → ∀ c ∈ cs, CommandParts L c := by
  unfold pipeline at h
  split at h
  · simp only [Option.bind_eq_bind, Option.bind_eq_some_iff] at h
    obtain ⟨tk1, h1, ⟨cs, tk2⟩, h2, h⟩ := h
    cases h
    rintro cs neg cond' ⟨⟩
    exact commandsLoop_parts hL hR _ (next_good hR.toGoodRec hg h1) h2
  · simp only [Option.bind_eq_bind, Option.bind_eq_some_iff] at h
    obtain ⟨⟨cs, tk2⟩, h2, h⟩ := h
    cases h
    rintro cs neg cond' ⟨⟩
    exact commandsLoop_parts hL hR _ hg h2

theorem pipelinesLoop_parts (hL : LocaleOk L) (hR : GoodParts L R) (n : Nat) {cond : Bool} {tk tk' : Token} {ps : List Pipeline}
    (hg : TokGood L tk) (h : pipelinesLoop L R n cond tk = some (ps, tk')) :
    ∀ cs neg cond', .mk cs neg cond' ∈ ps → ∀ c ∈ cs, CommandParts L c := by
  have hR' := hR.toGoodRec
  induction n generalizing cond tk tk' ps with
  | zero => simp [pipelinesLoop] at h
  | succ n ih =>
    simp only [pipelinesLoop, Option.bind_eq_bind, Option.bind_eq_some_iff] at h
    obtain ⟨⟨p, tk1⟩, h1, h⟩ := h
    have hg1 := (pipeline_good hL hR' hg h1).1
    have hp := pipeline_parts hL hR hg h1
    split at h
    · simp only [Option.bind_eq_some_iff] at h
      obtain ⟨tk2, h2, tk3, h3, ⟨ps1, tk4⟩, h4, h⟩ := h
      cases h
      intro cs neg cond' hc'
      rcases List.mem_cons.1 hc' with hc' | hc'
      · exact hp _ _ _ hc'.symm
      · exact ih (newlines_good hR' (next_good hR' hg1 h2) h3) h4 _ _ _ hc'
    · cases h
      intro cs neg cond' hc'
      simp at hc'
      exact hp _ _ _ hc'.symm

theorem andOr_parts (hL : LocaleOk L) (hR : GoodParts L R) {tk tk' : Token} {a : AndOr} (hg : TokGood L tk)
    (h : andOr L R tk = some (a, tk')) : ∀ ps async, a = .mk ps async → ∀ cs neg cond, .mk cs neg cond ∈ ps → ∀ c ∈ cs, CommandParts L c := by
  simp only [andOr, Option.bind_eq_bind, Option.bind_eq_some_iff] at h
  obtain ⟨⟨ps, tk1⟩, h1, h⟩ := h
  cases h
  rintro ps async ⟨⟩
  exact pipelinesLoop_parts hL hR _ hg h1

theorem listLoop_parts (hL : LocaleOk L) (hR : GoodParts L R) (n : Nat) {need : Bool} {tk tk' : Token} {l : List AndOr} (hg : TokGood L tk)
    (h : listLoop L R n need tk = some (l, tk')) : ∀ d, CommandOf d l → CommandParts L d := by
  have hR' := hR.toGoodRec
  induction n generalizing need tk tk' l with
  | zero => simp [listLoop] at h
  | succ n ih =>
    simp only [listLoop, Option.bind_eq_bind, Option.bind_eq_some_iff] at h
    obtain ⟨tk1, h1, h⟩ := h
    have hg1 := newlines_good hR' hg h1
    split at h
    · cases h
      rintro d ⟨ps, async, cs, neg, cond, h, -⟩
      cases h
    · simp only [Option.bind_eq_some_iff] at h
      obtain ⟨⟨a, tk2⟩, h2, ⟨need', tk3⟩, h3, ⟨l1, tk4⟩, h4, h⟩ := h
      cases h
      have hg2 := (andOr_good hL hR' hg1 h2).1
      rintro d ⟨ps, async, cs, neg, cond, h, hp, hd⟩
      rcases List.mem_cons.1 h with h | h
      · exact andOr_parts hL hR hg1 h2 _ _ h.symm _ _ _ hp _ hd
      · exact ih (separator_good hR' hg2 h3) h4 _ ⟨ps, async, cs, neg, cond, h, hp, hd⟩

theorem lineLoop_parts (hL : LocaleOk L) (hR : GoodParts L R) (n : Nat) {need : Bool} {tk : Token} {st : Src} {l : List AndOr} (hg : TokGood L tk)
    (h : lineLoop L R n need tk = some (l, st)) : ∀ d, CommandOf d l → CommandParts L d := by
  have hR' := hR.toGoodRec
  induction n generalizing need tk l with
  | zero => simp [lineLoop] at h
  | succ n ih =>
    rw [lineLoop] at h
    split at h
    · cases h
      rintro d ⟨ps, async, cs, neg, cond, h, -⟩
      cases h
    · split at h
      · cases h
      · simp only [Option.bind_eq_bind, Option.bind_eq_some_iff] at h
        obtain ⟨⟨a, tk2⟩, h2, ⟨need', tk3⟩, h3, ⟨l1, tk4⟩, h4, h⟩ := h
        cases h
        have hg2 := (andOr_good hL hR' hg h2).1
        rintro d ⟨ps, async, cs, neg, cond, h, hp, hd⟩
        rcases List.mem_cons.1 h with h | h
        · exact andOr_parts hL hR hg h2 _ _ h.symm _ _ _ hp _ hd
        · exact ih (separator_good hR' hg2 h3) h4 _ ⟨ps, async, cs, neg, cond, h, hp, hd⟩

theorem parser_parts (hL : LocaleOk L) (n : Nat) : GoodParts L (parser L n) := by
  induction n with
  | zero =>
    refine ⟨parser_good hL 0, ?_, ?_⟩
    · intro tk l tk' _ h; cases h
    · intro tk c tk' _ h; cases h
  | succ n ih =>
    refine ⟨parser_good hL (n + 1), ?_, ?_⟩
    · intro tk l tk' hg h
      exact .of (listLoop_good hL ih.toGoodRec _ hg h).2 (listLoop_parts hL ih _ hg h)
    · intro tk c tk' hg h
      exact compound_parts hL ih hg h

end Yash.Parser
