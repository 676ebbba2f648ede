import Verif.Expand.TildeSpec
import Verif.Expand.WordProps
/-!
# Property C90: tilde expansion
-/
set_option autoImplicit false

namespace Yash.Expand

open Spec (glue Seg Writes quotedFields wordFields Directory Part Parts colons)
open Syntax (Word WordUnit)

theorem tildeHome_iff {σ : Type} {E : Env σ} {s : σ} {user d : List Char} : tildeHome E s user = some d ↔ Directory E s user d := by
  have hq : (user.any fun c => decide (c = '"') || decide (c = '\'') || decide (c = '\\')) = true ↔ ¬∀ c ∈ user, c ∉ ['"', '\'', '\\'] := by
    rw [List.any_eq_true]
    constructor
    · rintro ⟨c, hc, h⟩ h'
      have := h' c hc
      simp at this h
      grind
    · intro h
      apply Classical.byContradiction
      intro h'
      apply h
      intro c hc hm
      apply h'
      refine ⟨c, hc, ?_⟩
      simp at hm ⊢
      grind
  unfold tildeHome
  constructor
  · intro h
    split at h
    · rename_i hu; subst hu; exact .home _ h
    · rename_i hu
      split at h
      · cases h
      · rename_i hn
        rw [hq, Classical.not_not] at hn
        split at h
        · rename_i hp
          simp at hp
          obtain ⟨hp, rfl⟩ := hp
          exact .pwd _ hp h
        · rename_i hp1
          split at h
          · rename_i hp
            simp at hp
            obtain ⟨hp, rfl⟩ := hp
            exact .oldpwd _ hp h
          · rename_i hp2
            simp at hp1 hp2
            split at h
            · rename_i d' hd
              cases h
              split at hd
              · rename_i hpm
                simp at hpm
                obtain ⟨hpp, hh⟩ := hpm
                match user, hh with
                | c :: n, hh =>
                  simp at hh
                  refine .stack c n _ hpp hh ?_ (fun x hx => hn x (by simp [hx])) hd
                  rintro rfl
                  rcases hh with rfl | rfl
                  · exact hp1 hpp rfl
                  · exact hp2 hpp rfl
              · cases hd
            · rename_i hd
              refine .user _ _ hu hn (fun hpp => ⟨hp1 hpp, hp2 hpp, fun hh => ?_⟩) h
              rw [if_pos] at hd
              · exact hd
              · simp [hpp]; exact hh
  · intro h
    cases h with
    | home d h => simpa using h
    | pwd d hp h => simpa [hp] using h
    | oldpwd d hp h => simpa [hp] using h
    | stack sign n d hp hs hne hn h =>
      have h1 : (sign :: n).any (fun c => decide (c = '"') || decide (c = '\'') || decide (c = '\\')) = false := by
        rw [Bool.eq_false_iff, ne_eq, hq, Classical.not_not]
        intro c hc
        rcases List.mem_cons.1 hc with rfl | hc
        · rcases hs with rfl | rfl <;> decide
        · exact hn c hc
      rw [if_neg (by simp), h1]
      simp [hp, hne, h]
      grind
    | user _ _ hu hn hx h =>
      have h1 : user.any (fun c => decide (c = '"') || decide (c = '\'') || decide (c = '\\')) = false := by
        rw [Bool.eq_false_iff, ne_eq, hq, Classical.not_not]; exact hn
      rw [if_neg hu, h1]
      cases hp : E.posix with
      | true => simp [h]
      | false =>
        obtain ⟨h2, h3, h4⟩ := hx hp
        simp only [Bool.false_eq_true, if_false, Bool.not_false, Bool.true_and, decide_eq_true_eq, h2, h3]
        split
        · rename_i hd
          split at hd
          · rename_i hh
            simp at hh
            rw [h4 hh] at hd
            cases hd
          · cases hd
        · exact h

theorem directory_unique {σ : Type} {E : Env σ} {s : σ} {user d d' : List Char} (h : Directory E s user d) (h' : Directory E s user d') : d = d' := by
  have h1 := tildeHome_iff.2 h
  rw [tildeHome_iff.2 h'] at h1
  exact (Option.some.inj h1).symm

theorem span_end (p : Char → Bool) : ∀ (u t : List Char), (∀ c ∈ u, p c = true) → (t = [] ∨ ∃ c t', t = c :: t' ∧ p c = false) →
    (u ++ t).takeWhile p = u ∧ (u ++ t).dropWhile p = t
  | [], t, _, ht => by
    rcases ht with rfl | ⟨c, t', rfl, h⟩
    · exact ⟨rfl, rfl⟩
    · simp [h]
  | c :: u, t, hu, ht => by
    obtain ⟨h1, h2⟩ := span_end p u t (fun c hc => hu c (by simp [hc])) ht
    have := hu c (by simp)
    simp [this, h1, h2]

theorem head_slash {t : List Char} : t.head? = some '/' ↔ ∃ t', t = '/' :: t' := by
  cases t <;> simp

/-- In a word. -/
theorem expandTilde_single {σ : Type} {E : Env σ} {s : σ} {hn : Bool} {w d rest : List Char} :
    expandTilde E s .single hn w = some (d, rest) ↔ ∃ user, w = '~' :: user ++ rest ∧ '/' ∉ user ∧ (rest.head? = some '/' ∨ rest = [] ∧ hn = false) ∧ Directory E s user d := by
  constructor
  · intro h
    unfold expandTilde at h
    split at h
    · rename_i w
      simp only at h
      split at h
      · cases h
      · rename_i hr
        split at h
        · cases h
        · rename_i home hh
          simp only [Option.some.injEq, Prod.mk.injEq] at h
          obtain ⟨rfl, rfl⟩ := h
          refine ⟨_, ?_, ?_, ?_, tildeHome_iff.1 hh⟩
          · rw [List.cons_append, List.takeWhile_append_dropWhile]
          · intro hm
            have := (List.all_takeWhile (p := fun c => !(decide (c = '/') || (Tilde.single != .single && decide (c = ':')))) (l := w))
            rw [List.all_eq_true] at this
            have := this _ hm
            simp at this
          · have hd := List.head?_dropWhile_not (fun c => !(decide (c = '/') || (Tilde.single != .single && decide (c = ':')))) w
            generalize w.dropWhile (fun c => !(decide (c = '/') || (Tilde.single != .single && decide (c = ':')))) = r at hr hd
            cases r with
            | nil => right; simpa using hr
            | cons c r => left; simpa using hd
    · cases h
  · rintro ⟨user, rfl, hu, ht, hd⟩
    unfold expandTilde
    simp only [List.cons_append]
    obtain ⟨h1, h2⟩ := span_end (fun c => !(decide (c = '/') || (Tilde.single != .single && decide (c = ':')))) user rest (by
        intro c hc
        have : c ≠ '/' := fun h => hu (h ▸ hc)
        simp [this]) (by
        rcases ht with ht | ⟨rfl, _⟩
        · obtain ⟨t', rfl⟩ := head_slash.1 ht
          exact .inr ⟨'/', t', rfl, by simp⟩
        · exact .inl rfl)
    rw [h1, h2]
    rw [if_neg (by
      rcases ht with ht | ⟨rfl, h⟩
      · obtain ⟨t', rfl⟩ := head_slash.1 ht
        simp
      · simp [h]), tildeHome_iff.2 hd]

/-- The last steps of the expansion of a word in which nothing can be expanded any more. -/
theorem multiple_good {σ : Type} {E : Env σ} (hL : E.locale.Ok) (hR : E.long.Ok) {s : σ} {w : Word} {st : St}
    (hunits : expandUnits E .single .word .lit true {} w s = .ok s st) (hg : Good st) : expandMultiple E w s = .ok s (st.cur.map (quoteRemoval .none)) := by
  have hfour : expandFour E .single .word .lit w s = .ok s st.finish := by
    simp only [expandFour, bind, M.bind, hunits]; rfl
  by_cases hc : st.fields = [] ∧ st.buf = []
  · have h0 : st.cur = [] := by simp [St.cur, hc]
    rw [h0]
    by_cases hre : st.removeempty = true
    · have : st.finish = [] := by simp [St.finish, hc, hre]
      rw [this] at hfour
      exact expandMultiple_inert E hL hR w s s [] hfour (by simp)
    · have : st.finish = [[]] := by simp [St.finish, hc, hre]
      rw [this] at hfour
      simp only [expandMultiple, bind, M.bind, hfour]
      have hb : (if E.braceexpand then expandBraceEach E.locale E.long [[]] else some [[]]) = some [[]] := by
        split
        · exact expandBraceEach_inert hL hR [[]] (by simp)
        · rfl
      rw [hb]
      simp only [M.check, M.pure, pure, M.get]
      rw [C14_fieldsplit_list]
      simp [Spec.fields, Spec.allFields, Spec.cut, Spec.pieceFields]
  · have h1 : st.cur = st.finish := by
      have : (st.removeempty && st.fields.isEmpty && st.buf.isEmpty) = false := by
        cases hf : st.fields with
        | nil =>
          cases hb : st.buf with
          | nil => exact absurd ⟨hf, hb⟩ hc
          | cons => simp
        | cons => simp
      simp [St.cur, hc, St.finish, this, St.all]
    rw [h1]
    exact expandMultiple_inert E hL hR w s s _ hfour fun w hw => by
      rw [← h1] at hw
      exact ⟨hg.full w hw, hg.inert w hw⟩

/-- A word of segments, after the first unit has been begun. -/
theorem units_segs {σ : Type} {E : Env σ} {s : σ} {gs : List Seg} (hok : ∀ g ∈ gs, g.Ok)
    (hset : ∀ x ∈ gs.flatMap Seg.vars, E.get s x ≠ .notFound ∨ E.unsetOk = true) (hfit : ∀ x ∈ gs.flatMap Seg.vars, Fits (E.get s x))
    {w : Word} (hw : Writes gs w) {st : St} (hg : Good st) :
    ∃ st', expandUnits E .single .word .lit false st w s = .ok s st' ∧ Good st' ∧
      st'.cur.map (quoteRemoval .none) = glue (st.cur.map (quoteRemoval .none)) (wordFields (fun x => quotedFields (E.getvar s "IFS".toList) (E.get s x)) gs) := by
  have hpieces : (gs.flatMap segOps).map Op.piece = gs.flatMap Seg.pieces := by
    rw [List.map_flatMap]
    congr 1
    funext g
    exact segOps_pieces g
  have hunits := expandUnits_ops E s (varWords E s) _ w hw (gs.flatMap segOps) st false hpieces (by rw [hg.out]; exact valid_segs gs hok)
    (by simp)
    (by
      intro x hx indq
      have hx' : x ∈ gs.flatMap Seg.vars := by
        rw [List.mem_flatMap] at hx ⊢
        obtain ⟨g, hg, hx⟩ := hx
        refine ⟨g, hg, ?_⟩
        cases g <;> simp [segOps] at hx
        obtain ⟨p, hp, hd⟩ := hx
        simp only [Seg.vars, List.mem_flatMap]
        refine ⟨p, hp, ?_⟩
        cases p <;> simp [dop] at hd
        simp [Spec.DPart.vars, hd]
      exact expandParam_simple E s x indq (hset x hx') (hfit x hx'))
  obtain ⟨h1, h2⟩ := segs_fold gs hok (vals_varWords E s _) st hg
  exact ⟨_, hunits, h1, h2⟩

theorem hard_text (d : List Char) (cc : CC) (h : cc.quotation = false) : quoteRemoval .none (d.map fun c => (c, cc)) = d := by
  induction d with
  | nil => rfl
  | cons c d ih => simp [quoteRemoval, h, ih, shouldEscape]

/-- **C90.** `~user` at the beginning of a word, before a slash or the end of the word, is replaced by the directory, whatever characters are in it:
it is neither split nor used as a pattern. The rest of the word is expanded as usual. -/
theorem tilde_word {σ : Type} (E : Env σ) (hL : E.locale.Ok) (hR : E.long.Ok) (s : σ) (w : Word) (user : List Char) (rest : Word) (hp : Spec.Prefix w user rest)
    (d : List Char) (hd : Directory E s user d) (gs : List Seg) (hw : Writes gs rest) (hok : ∀ g ∈ gs, g.Ok)
    (hset : ∀ x ∈ gs.flatMap Seg.vars, E.get s x ≠ .notFound ∨ E.unsetOk = true) (hfit : ∀ x ∈ gs.flatMap Seg.vars, Fits (E.get s x)) :
    expandMultiple E w s = .ok s (glue (if d = [] then [] else [d]) (wordFields (fun x => quotedFields (E.getvar s "IFS".toList) (E.get s x)) gs)) := by
  obtain ⟨t, w', rfl, rfl, hu, ht⟩ := hp
  have hx : expandTilde E s .single (!w'.isEmpty) ('~' :: user ++ t) = some (d, t) := by
    refine expandTilde_single.2 ⟨user, rfl, hu, ?_, hd⟩
    rcases ht with ht | ⟨rfl, rfl⟩
    · exact .inl ht
    · exact .inr ⟨rfl, rfl⟩
  have hst : Good (({} : St).addAll d { origin := .hard }) ∧ (({} : St).addAll d { origin := .hard }).cur.map (quoteRemoval .none) = if d = [] then [] else [d] := by
    by_cases h : d = []
    · subst h
      exact ⟨⟨rfl, by simp [St.cur, St.addAll], by simp [St.cur, St.addAll]⟩, by simp [St.cur, St.addAll]⟩
    · refine ⟨⟨rfl, ?_, ?_⟩, ?_⟩
      · simp only [St.cur, St.addAll, St.all]
        simp [h]
        intro c hc
        rintro x _ rfl rfl
        simp [Inert]
      · simp [St.cur, St.addAll, St.all, h]
      · have := hard_text d { origin := .hard } rfl
        simp [St.cur, St.addAll, St.all, h, this]
  obtain ⟨st', h1, h2, h3⟩ := units_segs hok hset hfit hw hst.1
  rw [hst.2] at h3
  rw [← h3]
  refine multiple_good hL hR ?_ h2
  rw [← h1, expandUnits, expandUnits]
  simp only [bind, M.bind, expandUnit, expandString, hx]
  simp [CC.lit]

/-- **C90.** Everything else is not changed by tilde expansion: if there is no such directory, if the name is quoted, or if something other than a slash follows. -/
theorem tilde_not {σ : Type} (E : Env σ) (hL : E.locale.Ok) (hR : E.long.Ok) (s : σ) (w : Word) (hn : ∀ user rest d, Spec.Prefix w user rest → ¬Directory E s user d)
    (gs : List Seg) (hw : Writes gs w) (hok : ∀ g ∈ gs, g.Ok)
    (hset : ∀ x ∈ gs.flatMap Seg.vars, E.get s x ≠ .notFound ∨ E.unsetOk = true) (hfit : ∀ x ∈ gs.flatMap Seg.vars, Fits (E.get s x)) :
    expandMultiple E w s = .ok s (wordFields (fun x => quotedFields (E.getvar s "IFS".toList) (E.get s x)) gs) := by
  obtain ⟨st', h1, h2, h3⟩ := units_segs hok hset hfit hw (st := {}) ⟨rfl, by simp [St.cur], by simp [St.cur]⟩
  have h3' : st'.cur.map (quoteRemoval .none) = wordFields (fun x => quotedFields (E.getvar s "IFS".toList) (E.get s x)) gs := by
    rw [h3]; simp [St.cur, glue]
  rw [← h3']
  refine multiple_good hL hR ?_ h2
  rw [← h1]
  cases w with
  | nil => rfl
  | cons u w' =>
    rw [expandUnits, expandUnits]
    cases u with
    | str t =>
      have hx : expandTilde E s .single (!w'.isEmpty) t = none := by
        rw [Option.eq_none_iff_forall_ne_some]
        rintro ⟨d, r⟩ hx
        obtain ⟨user, rfl, hu, hr, hd⟩ := expandTilde_single.1 hx
        refine hn user (.str r :: w') d ⟨r, w', rfl, rfl, hu, ?_⟩ hd
        rcases hr with hr | ⟨hr, he⟩
        · exact .inl hr
        · exact .inr ⟨hr, by simpa using he⟩
      simp only [bind, M.bind, expandUnit, expandString, hx]
      simp
    | param p => simp only [bind, M.bind, expandUnit]
    | cmdsub c => simp only [bind, M.bind, expandUnit]
    | arith a => simp only [bind, M.bind, expandUnit]

/-- If `HOME` is empty, `~` expands to no field. (POSIX requires an empty field.) -/
theorem tilde_empty {σ : Type} (E : Env σ) (hL : E.locale.Ok) (hR : E.long.Ok) (s : σ) (h : E.getvar s "HOME".toList = some []) :
    expandMultiple E [.str ['~']] s = .ok s [] := by
  have := tilde_word E hL hR s [.str ['~']] [] [.str []] ⟨[], [], rfl, rfl, by simp, .inr ⟨rfl, rfl⟩⟩ [] (.home _ h) [] (.str [] [] [] .nil) (by simp) (by simp) (by simp)
  rw [this]
  rfl

/-! ## Assignments -/

/-- Without special characters. -/
def NoQuotes (x : List Char) : Prop := ∀ c ∈ x, c ∉ ['"', '\'', '\\']

theorem loop_text {σ : Type} {E : Env σ} {s : σ} {hn : Bool} : ∀ (x r : List Char) (st : St), st.indq = false → NoQuotes x → ':' ∉ x →
    stringLoop E s .multi .word .lit hn st (x ++ r) = stringLoop E s .multi .word .lit hn (st.addAll x .lit) r
  | [], r, st, _, _, _ => by simp [St.addAll]
  | c :: x, r, st, hi, hq, hc => by
    have h1 := hq c (by simp)
    simp only [List.mem_cons, List.not_mem_nil, or_false, not_or] at h1
    have h2 : c ≠ ':' := fun h => hc (by simp [h])
    rw [List.cons_append, stringLoop.eq_def]
    simp only [h1, h2, hi, decide_false, Bool.false_and, Bool.false_eq_true, if_false]
    rw [loop_text x r _ (by simpa using hi) (fun c h => hq c (by simp [h])) (fun h => hc (by simp [h]))]
    congr 1
    simp [St.addAll, St.add, CC.lit]

theorem part_tilde {σ : Type} {E : Env σ} {s : σ} {x : List Char} (hx : ':' ∉ x) {r : List Char} (hr : r = [] ∨ r.head? = some ':') :
    (∃ user rest d, x = '~' :: user ++ rest ∧ '/' ∉ user ∧ (rest = [] ∨ rest.head? = some '/') ∧ Directory E s user d ∧
      expandTilde E s .multi false (x ++ r) = some (d, rest ++ r)) ∨
    ((∀ user rest d, x = '~' :: user ++ rest → '/' ∉ user → rest = [] ∨ rest.head? = some '/' → ¬Directory E s user d) ∧ expandTilde E s .multi false (x ++ r) = none) := by
  have hr' : r = [] ∨ ∃ r', r = ':' :: r' := by
    rcases hr with h | h
    · exact .inl h
    · cases r <;> simp at h
      exact .inr ⟨_, by rw [h]⟩
  have key : ∀ user rest, x = '~' :: user ++ rest → '/' ∉ user → rest = [] ∨ rest.head? = some '/' →
      expandTilde E s .multi false (x ++ r) = (tildeHome E s user).map fun d => (d, rest ++ r) := by
    rintro user rest rfl hu hrest
    obtain ⟨h1, h2⟩ := span_end (fun c => !(decide (c = '/') || (Tilde.multi != .single && decide (c = ':')))) user (rest ++ r) (by
        intro c hc
        have h1 : c ≠ '/' := fun h => hu (h ▸ hc)
        have h2 : c ≠ ':' := fun h => hx (by subst h; simp [hc])
        simp [h1, h2]) (by
        rcases hrest with rfl | h
        · rcases hr' with rfl | ⟨r', rfl⟩
          · exact .inl rfl
          · exact .inr ⟨':', r', rfl, by decide⟩
        · obtain ⟨t', rfl⟩ := head_slash.1 h
          exact .inr ⟨'/', t' ++ r, rfl, by simp⟩)
    unfold expandTilde
    simp only [List.cons_append, List.append_assoc]
    rw [h1, h2]
    simp only [Bool.and_false, Bool.false_eq_true, if_false]
    cases tildeHome E s user <;> rfl
  by_cases hs : ∃ x', x = '~' :: x'
  · obtain ⟨x', rfl⟩ := hs
    have hu : '/' ∉ x'.takeWhile (fun c => c != '/') := by
      intro hm
      have := (List.all_takeWhile (p := fun c => c != '/') (l := x'))
      rw [List.all_eq_true] at this
      have := this _ hm
      simp at this
    have hrest : x'.dropWhile (fun c => c != '/') = [] ∨ (x'.dropWhile (fun c => c != '/')).head? = some '/' := by
      have hd := List.head?_dropWhile_not (fun c => c != '/') x'
      generalize x'.dropWhile (fun c => c != '/') = q at hd
      cases q with
      | nil => left; rfl
      | cons c q => right; simpa using hd
    have heq : '~' :: x' = '~' :: x'.takeWhile (fun c => c != '/') ++ x'.dropWhile (fun c => c != '/') := by
      rw [List.cons_append, List.takeWhile_append_dropWhile]
    have hk := key _ _ heq hu hrest
    cases hd : tildeHome E s (x'.takeWhile (fun c => c != '/')) with
    | some d =>
      left
      refine ⟨_, _, d, heq, hu, hrest, tildeHome_iff.1 hd, ?_⟩
      rw [hk, hd]; rfl
    | none =>
      right
      have hnone : expandTilde E s .multi false ('~' :: x' ++ r) = none := by rw [hk, hd]; rfl
      refine ⟨fun user rest d h1 h2 h3 h4 => ?_, hnone⟩
      have := key user rest h1 h2 h3
      rw [hnone, tildeHome_iff.2 h4] at this
      cases this
  · right
    refine ⟨fun user rest d h _ _ _ => hs ⟨_, h⟩, ?_⟩
    unfold expandTilde
    split
    · rename_i w hw
      exfalso
      cases x with
      | nil =>
        rcases hr' with rfl | ⟨r', rfl⟩
        · cases hw
        · simp at hw
      | cons c x =>
        simp at hw
        exact hs ⟨x, by rw [hw.1]⟩
    · rfl

/-- The parts after the first one. -/
theorem loop_parts {σ : Type} {E : Env σ} {s : σ} : ∀ (xs : List (List Char)) (st : St), st.indq = false → (∀ x ∈ xs, ':' ∉ x ∧ NoQuotes x) →
    ∃ st' outs, stringLoop E s .multi .word .lit false st (xs.flatMap fun x => ':' :: x) = some st' ∧ Parts E s xs outs ∧ st'.fields = st.fields ∧
      quoteRemoval .none st'.buf = quoteRemoval .none st.buf ++ (outs.flatMap fun x => ':' :: x)
  | [], st, _, _ => ⟨st, [], by simp [stringLoop], .nil, rfl, by simp⟩
  | x :: xs, st, hi, hx => by
    obtain ⟨hx1, hx2⟩ := hx x (by simp)
    have hr : (xs.flatMap fun x => ':' :: x) = [] ∨ (xs.flatMap fun x => ':' :: x).head? = some ':' := by
      cases xs <;> simp
    have htext : ∀ (b : CWord) y, quoteRemoval .none (b ++ y.map fun c => (c, CC.lit)) = quoteRemoval .none b ++ y := by
      intro b y
      rw [quoteRemoval_append, hard_text y .lit rfl]
    rw [List.flatMap_cons, List.cons_append, stringLoop.eq_def]
    simp only [hi]
    rw [if_neg (by decide), if_neg (by decide), if_neg (by simp), if_pos (by decide)]
    rcases part_tilde hx1 hr (E := E) (s := s) with ⟨user, rest, d, h1, h2, h3, h4, h5⟩ | ⟨h1, h2⟩
    · split
      · rename_i h; rw [h5] at h; cases h
      · rename_i home w' h
        rw [h5] at h
        cases h
        have hsub : ∀ c ∈ rest, c ∈ x := by intro c hc; rw [h1]; simp [hc]
        rw [loop_text rest _ _ (by simpa using hi) (fun c hc => hx2 c (hsub c hc)) (fun h => hx1 (hsub _ h))]
        obtain ⟨st', outs, g1, g2, g3, g4⟩ := loop_parts xs (((st.add ':' .lit).addAll d { origin := .hard }).addAll rest .lit) (by simpa using hi) (fun y hy => hx y (by simp [hy]))
        refine ⟨st', (d ++ rest) :: outs, g1, .cons (h1 ▸ .tilde user rest d h2 h3 h4) g2, g3, ?_⟩
        rw [g4]
        simp only [St.addAll, St.add]
        rw [htext, quoteRemoval_append, hard_text d _ rfl, quoteRemoval_append]
        simp [quoteRemoval, CC.lit, shouldEscape]
    · split
      · rw [loop_text x _ _ (by simpa using hi) hx2 hx1]
        obtain ⟨st', outs, g1, g2, g3, g4⟩ := loop_parts xs ((st.add ':' .lit).addAll x .lit) (by simpa using hi) (fun y hy => hx y (by simp [hy]))
        refine ⟨st', x :: outs, g1, .cons (.same x h1) g2, g3, ?_⟩
        rw [g4]
        simp only [St.addAll, St.add]
        rw [htext, quoteRemoval_append]
        simp [quoteRemoval, CC.lit, shouldEscape]
      · rename_i h; rw [h2] at h; cases h

theorem colons_cons : ∀ (x : List Char) (xs : List (List Char)), colons (x :: xs) = x ++ xs.flatMap fun x => ':' :: x
  | x, [] => by simp [colons]
  | x, y :: xs => by
    rw [colons, colons_cons y xs]
    simp

/-- Every text consists of such parts. -/
theorem colons_all : ∀ w : List Char, ∃ x xs, colons (x :: xs) = w ∧ ∀ y ∈ x :: xs, ':' ∉ y
  | [] => ⟨[], [], rfl, by simp⟩
  | c :: w => by
    obtain ⟨x, xs, h1, h2⟩ := colons_all w
    by_cases hc : c = ':'
    · subst hc
      refine ⟨[], x :: xs, by rw [colons, h1]; rfl, ?_⟩
      intro y hy
      rcases List.mem_cons.1 hy with rfl | hy
      · simp
      · exact h2 y hy
    · refine ⟨c :: x, xs, ?_, ?_⟩
      · rw [colons_cons] at h1 ⊢
        rw [List.cons_append, h1]
      · intro y hy
        rcases List.mem_cons.1 hy with rfl | hy
        · intro h
          rcases List.mem_cons.1 h with h | h
          · exact hc h.symm
          · exact h2 x (by simp) h
        · exact h2 y (by simp [hy])

/-- **C90.** In the value of an assignment, `~user` is replaced at the beginning and after each colon. -/
theorem tilde_assignment_partial {σ : Type} (E : Env σ) (s : σ) (x : List Char) (xs : List (List Char)) (hx : ∀ y ∈ x :: xs, ':' ∉ y ∧ NoQuotes y) :
    ∃ outs, Parts E s (x :: xs) outs ∧ expandSingle E .multi .word .none [.str (colons (x :: xs))] s = .ok s (colons outs) := by
  obtain ⟨hx1, hx2⟩ := hx x (by simp)
  have hr : (xs.flatMap fun x => ':' :: x) = [] ∨ (xs.flatMap fun x => ':' :: x).head? = some ':' := by
    cases xs <;> simp
  have finish : ∀ (st0 : St) (out : List Char), Part E s x out → st0.fields = [] → st0.indq = false → quoteRemoval .none st0.buf = out →
      expandString E s .multi .word .lit true false {} (colons (x :: xs)) = stringLoop E s .multi .word .lit false st0 (xs.flatMap fun x => ':' :: x) →
      ∃ outs, Parts E s (x :: xs) outs ∧ expandSingle E .multi .word .none [.str (colons (x :: xs))] s = .ok s (colons outs) := by
    intro st0 out hp hf hi hb he
    obtain ⟨st', outs, g1, g2, g3, g4⟩ := loop_parts (E := E) (s := s) xs st0 hi (fun y hy => hx y (by simp [hy]))
    refine ⟨out :: outs, .cons hp g2, ?_⟩
    rw [colons_cons out outs, ← hb, ← g4]
    simp only [expandSingle, bind, M.bind, expandUnits, expandUnit, List.isEmpty_nil, Bool.not_true, he, g1, M.check, pure, M.pure, single]
    congr 1
    unfold St.finish
    rw [g3, hf]
    split
    · rename_i h
      simp at h
      simp [joinFields, h.2]
    · simp [joinFields]
  rcases part_tilde hx1 hr (E := E) (s := s) with ⟨user, rest, d, h1, h2, h3, h4, h5⟩ | ⟨h1, h2⟩
  · refine finish ((({} : St).addAll d { origin := .hard }).addAll rest .lit) (d ++ rest) (h1 ▸ .tilde user rest d h2 h3 h4) rfl rfl ?_ ?_
    · simp only [St.addAll]
      rw [quoteRemoval_append, hard_text rest .lit rfl]
      simp only [List.nil_append]
      rw [hard_text d _ rfl]
    · have hsub : ∀ c ∈ rest, c ∈ x := by intro c hc; rw [h1]; simp [hc]
      unfold expandString
      rw [colons_cons, if_pos (by decide), h5]
      simp only
      rw [loop_text rest _ _ rfl (fun c hc => hx2 c (hsub c hc)) (fun h => hx1 (hsub _ h))]
  · refine finish (({} : St).addAll x .lit) x (.same x h1) rfl rfl ?_ ?_
    · simp only [St.addAll, List.nil_append]
      rw [hard_text x .lit rfl]
    · unfold expandString
      rw [colons_cons, if_pos (by decide), h2]
      simp only
      rw [loop_text x _ _ rfl hx2 hx1]

end Yash.Expand
