import Verif.Expand.BraceGraph
import Verif.Expand.QuoteProps
/-! # Property C16: brace expansion is the product of its alternatives -/
set_option autoImplicit false
set_option linter.unusedSimpArgs false

namespace Yash.Expand

open Spec

theorem drop_cons {α : Type} {l : List α} {n : Nat} {x : α} {xs : List α} (h : l.drop n = x :: xs) :
    l[n]? = some x ∧ l.drop (n + 1) = xs ∧ n < l.length := by
  have h1 : l[n]? = some x := by
    have : (l.drop n)[0]? = some x := by rw [h]; rfl
    simpa using this
  refine ⟨h1, ?_, (List.getElem?_eq_some_iff.1 h1).1⟩
  rw [← List.drop_drop, h]; rfl

theorem drop_append' {α : Type} {l : List α} {n : Nat} {xs ys : List α} (h : l.drop n = xs ++ ys) :
    l.drop (n + xs.length) = ys := by
  rw [← List.drop_drop, h]; simp

theorem collect_some {α β : Type} (f : α → Option (List β)) (g : α → List β) :
    ∀ (l : List α), (∀ a ∈ l, f a = some (g a)) → collect f l = some (l.flatMap g)
  | [], _ => rfl
  | a :: l, h => by
    simp only [collect, h a (by simp), collect_some f g l (fun x hx => h x (by simp [hx])),
      List.flatMap_cons]

theorem collect_append {α β : Type} (f : α → Option (List β)) (l m : List α) (x y : List β)
    (h1 : collect f l = some x) (h2 : collect f m = some y) : collect f (l ++ m) = some (x ++ y) := by
  induction l generalizing x with
  | nil => simp only [collect, Option.some.injEq] at h1; subst h1; simpa using h2
  | cons a l ih =>
    simp only [collect] at h1
    simp only [List.cons_append, collect]
    cases hf : f a with
    | none => simp [hf] at h1
    | some z =>
      rw [hf] at h1
      cases hc : collect f l with
      | none => simp [hc] at h1
      | some w =>
        rw [hc] at h1
        simp only [Option.some.injEq] at h1
        rw [ih w hc]
        simp [← h1]

section
variable (L : Locale) (R : LongRange) (word : CWord) (g : List (Option Nat))

/-- Indices of the commas of alternatives whose text starts at `p`. -/
def commas (p : Nat) : Alts → List Nat
  | .one _ => []
  | .more t a => (p + t.render.length) :: commas (p + t.render.length + 1) a

theorem skipCommas_spec : ∀ (a : Alts) (d : Nat) (wr : CWord) (gr : List (Option Nat)) (fuel : Nat),
    word.drop (d + 1) = a.render ++ lit '}' :: wr →
    g.drop d = some (d + 1 + firstLen a) :: (altsGraph (d + 1) true a ++ gr) →
    word.length + 1 ≤ fuel + d →
    skipCommas word g fuel d = some (d + 1 + a.render.length)
  | .one t, d, wr, gr, fuel, hw, hg, hf => by
    have h2 : word[d + 1 + t.render.length]? = some (lit '}') :=
      (drop_cons (drop_append' hw)).1
    have hlt := (List.getElem?_eq_some_iff.1 h2).1
    obtain ⟨k, rfl⟩ := Nat.exists_eq_succ_of_ne_zero (by omega : fuel ≠ 0)
    simp only [skipCommas, (drop_cons hg).1, firstLen, h2, Option.map_some, Alts.render]
  | .more t a, d, wr, gr, fuel, hw, hg, hf => by
    have hw' : word.drop (d + 1) = t.render ++ lit ',' :: (a.render ++ lit '}' :: wr) := by
      rw [hw]; simp [Alts.render]
    obtain ⟨h2, h3, hlt⟩ := drop_cons (drop_append' hw')
    obtain ⟨k, rfl⟩ := Nat.exists_eq_succ_of_ne_zero (by omega : fuel ≠ 0)
    simp only [skipCommas, (drop_cons hg).1, firstLen, h2, Option.map_some]
    have hg' : g.drop (d + 1 + t.render.length) =
        some (d + 1 + t.render.length + 1 + firstLen a) ::
          (altsGraph (d + 1 + t.render.length + 1) true a ++ gr) := by
      have h4 := (drop_cons hg).2.1
      have h5 : g.drop (d + 1) = treeGraph (d + 1) t ++
          (some (d + 1 + t.render.length + 1 + firstLen a) ::
          (altsGraph (d + 1 + t.render.length + 1) true a ++ gr)) := by
        rw [h4]; simp [altsGraph]
      have := drop_append' h5
      rwa [treeGraph_length] at this
    rw [skipCommas_spec a (d + 1 + t.render.length) wr gr k h3 hg' (by omega)]
    simp [Alts.render]
    omega

theorem delims_spec : ∀ (a : Alts) (d : Nat) (comma : Bool) (wr : CWord) (gr : List (Option Nat))
    (fuel : Nat),
    word.drop (d + 1) = a.render ++ lit '}' :: wr →
    g.drop d = some (d + 1 + firstLen a) :: (altsGraph (d + 1) comma a ++ gr) →
    word.length + 1 ≤ fuel + d →
    delims word g fuel d = some (d :: commas (d + 1) a)
  | .one t, d, comma, wr, gr, fuel, hw, hg, hf => by
    have h2 : word[d + 1 + t.render.length]? = some (lit '}') :=
      (drop_cons (drop_append' hw)).1
    have hlt := (List.getElem?_eq_some_iff.1 h2).1
    obtain ⟨k, rfl⟩ := Nat.exists_eq_succ_of_ne_zero (by omega : fuel ≠ 0)
    simp only [delims, (drop_cons hg).1, firstLen, h2, Option.map_some, commas]
  | .more t a, d, comma, wr, gr, fuel, hw, hg, hf => by
    have hw' : word.drop (d + 1) = t.render ++ lit ',' :: (a.render ++ lit '}' :: wr) := by
      rw [hw]; simp [Alts.render]
    obtain ⟨h2, h3, hlt⟩ := drop_cons (drop_append' hw')
    obtain ⟨k, rfl⟩ := Nat.exists_eq_succ_of_ne_zero (by omega : fuel ≠ 0)
    simp only [delims, (drop_cons hg).1, firstLen, h2, Option.map_some]
    have hg' : g.drop (d + 1 + t.render.length) =
        some (d + 1 + t.render.length + 1 + firstLen a) ::
          (altsGraph (d + 1 + t.render.length + 1) true a ++ gr) := by
      have h4 := (drop_cons hg).2.1
      have h5 : g.drop (d + 1) = treeGraph (d + 1) t ++
          (some (d + 1 + t.render.length + 1 + firstLen a) ::
          (altsGraph (d + 1 + t.render.length + 1) true a ++ gr)) := by
        rw [h4]; simp [altsGraph]
      have := drop_append' h5
      rwa [treeGraph_length] at this
    rw [delims_spec a (d + 1 + t.render.length) true wr gr k h3 hg' (by omega)]
    simp [commas]

/-- The words of numeric sequences. -/
abbrev seqs : CWord → Option (List CWord) := sequenceWords L.space R.lmin R.lmax

theorem clean_prefix : ∀ (t : Tree), t.Clean → ∃ pre post, t.render = pre ++ post ∧
    (∀ c ∈ pre, ¬ special c) ∧ (post = [] ∨ post.head? = some (lit '{'))
  | .nil, _ => ⟨[], [], rfl, by simp, Or.inl rfl⟩
  | .chr c r, h => by
    obtain ⟨pre, post, h1, h2, h3⟩ := clean_prefix r h.2
    refine ⟨c :: pre, post, by simp [Tree.render, h1], ?_, h3⟩
    intro x hx
    rcases List.mem_cons.1 hx with rfl | hx
    · exact h.1
    · exact h2 x hx
  | .group a r, _ => ⟨[], (Tree.group a r).render, rfl, by simp, Or.inr rfl⟩

theorem sequence?_range {L : Locale} {R : LongRange} {s : List Char} {q : Sequence}
    (hR : R.Ok) (h : sequence? L.space R.lmin R.lmax s = some q) :
    (R.lmin ≤ q.start ∧ q.start ≤ R.lmax) ∧ (R.lmin ≤ q.stop ∧ q.stop ≤ R.lmax) ∧
    (R.lmin ≤ q.step ∧ q.step ≤ R.lmax) ∧ q.step ≠ 0 := by
  have := hR.neg
  have := hR.pos
  simp only [sequence?] at h
  split at h
  · split at h
    · split at h
      · rename_i hr
        cases h
        refine ⟨hr.1, hr.2, ?_, ?_⟩ <;> simp only <;> split <;> omega
      · cases h
    · cases h
  · split at h
    · split at h
      · rename_i hr
        cases h
        exact ⟨hr.1, hr.2.1, hr.2.2.1, hr.2.2.2⟩
      · cases h
    · cases h
  · cases h

theorem clean_noClose : ∀ (t : Tree), t.Clean → t.NoClose
  | .nil, _ => trivial
  | .chr _ r, h => ⟨fun e => h.1 (Or.inr (Or.inr e)), clean_noClose r h.2⟩
  | .group _ r, h => clean_noClose r h.2

theorem clean_canonical : ∀ (t : Tree), t.Clean → t.Canonical
  | .nil, _ => trivial
  | .chr _ r, h => ⟨fun _ => clean_noClose r h.2, clean_canonical r h.2⟩
  | .group _ r, h => ⟨h.1, clean_canonical r h.2⟩

/-- The continuation: `gen` at `pos` yields `K`. -/
def Cont (pos : Nat) (K : CWord → List CWord) : Prop :=
  ∀ f b, word.length + 1 ≤ f + pos → gen L R word g f pos b = some (K b)

variable {L R word g}

theorem gen_none {pos : Nat} {c : CChar} {K : CWord → List CWord} (hw : word[pos]? = some c)
    (hg : g[pos]? = some none) (hK : Cont L R word g (pos + 1) K) :
    Cont L R word g pos (fun b => K (b ++ [c])) := by
  intro f b hf
  have hlt := (List.getElem?_eq_some_iff.1 hw).1
  obtain ⟨k, rfl⟩ := Nat.exists_eq_succ_of_ne_zero (by omega : f ≠ 0)
  simp only [gen, hw, hg]
  exact hK k _ (by omega)

mutual
theorem gen_tree (hL : L.Ok) (hR : R.Ok) : ∀ (t : Tree), t.Canonical →
    ∀ (pos : Nat) (wr : CWord) (gr : List (Option Nat)) (K : CWord → List CWord),
    word.drop pos = t.render ++ wr → g.drop pos = treeGraph pos t ++ gr →
    Cont L R word g (pos + t.render.length) K →
    Cont L R word g pos (fun b => (t.expand (seqs L R)).flatMap (fun x => K (b ++ x)))
  | .nil, _, pos, wr, gr, K, hw, hg, hK => by
    intro f b hf
    simpa [Tree.expand, Tree.render] using hK f b hf
  | .chr c r, hc, pos, wr, gr, K, hw, hg, hK => by
    obtain ⟨h1, h2, h3⟩ := drop_cons (show word.drop pos = c :: (r.render ++ wr) by
      simpa [Tree.render] using hw)
    obtain ⟨h4, h5, _⟩ := drop_cons (show g.drop pos = none :: (treeGraph (pos + 1) r ++ gr) by
      simpa [treeGraph] using hg)
    have ih := gen_tree hL hR r hc.2 (pos + 1) wr gr K h2 h5
      (by simpa [Tree.render, Nat.add_assoc, Nat.add_comm, Nat.add_left_comm] using hK)
    have := gen_none h1 h4 ih
    intro f b hf
    rw [this f b hf]
    simp [Tree.expand, List.flatMap_map]
  | .group a r, hc, pos, wr, gr, K, hw, hg, hK => by
    simp only [Tree.Canonical] at hc
    have hw' : word.drop pos = lit '{' :: (a.render ++ lit '}' :: (r.render ++ wr)) := by
      rw [hw]; simp [Tree.render]
    have hg' : g.drop pos = some (pos + 1 + firstLen a) ::
        (altsGraph (pos + 1) false a ++ (treeGraph (pos + 1 + a.render.length + 1) r ++ gr)) := by
      rw [hg]; simp [treeGraph]
    obtain ⟨h1, h2, h3⟩ := drop_cons hw'
    obtain ⟨h4, h5, _⟩ := drop_cons hg'
    have h6 := (drop_cons (drop_append' h2)).2.1
    have h7 : g.drop (pos + 1 + a.render.length + 1) =
        treeGraph (pos + 1 + a.render.length + 1) r ++ gr := by
      have := drop_append' h5
      rwa [altsGraph_length, ← Nat.add_assoc] at this
    have ihr := gen_tree hL hR r hc.2 (pos + 1 + a.render.length + 1) wr gr K h6 h7
      (by
        have e : pos + (Tree.group a r).render.length =
            pos + 1 + a.render.length + 1 + r.render.length := by simp [Tree.render]; omega
        rw [← e]; exact hK)
    have := gen_group hL hR a hc.1 pos (r.render ++ wr) _ _ hw' hg' ihr
    intro f b hf
    rw [this f b hf]
    simp only [Tree.expand, List.flatMap_assoc, List.flatMap_map, List.append_assoc]
theorem gen_group (hL : L.Ok) (hR : R.Ok) : ∀ (a : Alts), a.Clean →
    ∀ (pos : Nat) (wr : CWord) (gr : List (Option Nat)) (K : CWord → List CWord),
    word.drop pos = lit '{' :: (a.render ++ lit '}' :: wr) →
    g.drop pos = some (pos + 1 + firstLen a) :: (altsGraph (pos + 1) false a ++ gr) →
    Cont L R word g (pos + 1 + a.render.length + 1) K →
    Cont L R word g pos (fun b => (a.choices (seqs L R)).flatMap (fun x => K (b ++ x)))
  | .one t, hc, pos, wr, gr, K, hw, hg, hK => by
    simp only [Alts.Clean] at hc
    obtain ⟨h1, h2, h3⟩ := drop_cons hw
    obtain ⟨h4, h5, _⟩ := drop_cons hg
    simp only [Alts.render, firstLen] at h2 h4 hK
    obtain ⟨h6, h7, h8⟩ := drop_cons (drop_append' h2)
    have h5' : g.drop (pos + 1) = treeGraph (pos + 1) t ++ (none :: gr) := by
      rw [h5]; simp [altsGraph]
    have h9 := (drop_cons (drop_append' h5')).1
    rw [treeGraph_length] at h9
    have ih := gen_tree hL hR t (clean_canonical t hc) (pos + 1) _ _ _ h2 h5' (gen_none h6 h9 hK)
    intro f b hf
    obtain ⟨k, rfl⟩ := Nat.exists_eq_succ_of_ne_zero (by omega : f ≠ 0)
    simp only [gen, h1, h4, h6, Option.map_some]
    rw [if_neg (by decide), if_neg (by decide), if_pos trivial, h2,
      parseSeq_spec hL t.render wr (clean_prefix t hc)]
    simp only [Alts.choices, seqs, sequenceWords]
    split
    · rename_i p hp
      split at hp
      · cases hp
      · rename_i hq
        rw [Option.map_eq_some_iff] at hp
        obtain ⟨q, hq1, rfl⟩ := hp
        obtain ⟨r1, r2, r3, r4⟩ := sequence?_range hR hq1
        simp only [(C17_sequence_is_progression hR r1 r2 r3 r4).1]
        rw [if_neg hq, hq1]
        rw [collect_some _ (fun v => K (b ++ (showInt q.plus q.width v).map fun c => (c, { origin := .hard })))]
        · simp [List.flatMap_map]
        · intro v hv
          rw [hK _ _ (by omega)]
          simp [seqWord, fmtLong, showInt, Nat.sub_sub]
    · rename_i hp
      have hn : (if (t.render.any fun c => c.2.quoted) = true then none
          else Option.map (fun q => (progression q.start q.stop q.step).map fun v =>
            (showInt q.plus q.width v).map fun c => ((c, { origin := .hard }) : CChar))
            (sequence? L.space R.lmin R.lmax (text t.render))) = none := by
        split at hp
        · rename_i hq; rw [if_pos hq]
        · rename_i hq
          rw [if_neg hq]
          rw [Option.map_eq_none_iff] at hp ⊢
          exact hp
      rw [hn, ih k _ (by omega)]
      simp [List.flatMap_map, seqs]
  | .more t a, hc, pos, wr, gr, K, hw, hg, hK => by
    obtain ⟨h1, h2, h3⟩ := drop_cons hw
    obtain ⟨h4, h5, _⟩ := drop_cons hg
    intro f b hf
    obtain ⟨k, rfl⟩ := Nat.exists_eq_succ_of_ne_zero (by omega : f ≠ 0)
    have h2' : word.drop (pos + 1) = t.render ++ lit ',' :: (a.render ++ lit '}' :: wr) := by
      rw [h2]; simp [Alts.render]
    obtain ⟨h6, h7, h8⟩ := drop_cons (drop_append' h2')
    simp only [gen, h1, h4, firstLen, h6, Option.map_some]
    rw [if_neg (by decide), if_neg (by decide), if_pos trivial]
    simp only [delims_spec word g (.more t a) pos false wr gr (word.length + 1) h2 hg (by omega)]
    have := gen_alts hL hR (.more t a) hc pos wr gr K false (by simp) h2 hg hK k b (by omega)
    rw [this]
    simp [Alts.choices, Alts.alternatives]
/-- All alternatives, the first one starting after the delimiter at `d`. -/
theorem gen_alts (hL : L.Ok) (hR : R.Ok) : ∀ (a : Alts), a.Clean →
    ∀ (d : Nat) (wr : CWord) (gr : List (Option Nat)) (K : CWord → List CWord) (comma : Bool),
    (comma = false → ∃ t a', a = .more t a') →
    word.drop (d + 1) = a.render ++ lit '}' :: wr →
    g.drop d = some (d + 1 + firstLen a) :: (altsGraph (d + 1) comma a ++ gr) →
    Cont L R word g (d + 1 + a.render.length + 1) K →
    ∀ (f : Nat) (b : CWord), word.length + 1 ≤ f + (d + 1) →
    collect (fun d => gen L R word g f (d + 1) b) (d :: commas (d + 1) a) =
      some ((a.alternatives (seqs L R)).flatMap (fun x => K (b ++ x)))
  | .one t, hc, d, wr, gr, K, comma, hcm, hw, hg, hK, f, b, hf => by
    cases comma with
    | false => obtain ⟨_, _, h⟩ := hcm rfl; cases h
    | true =>
    simp only [Alts.Clean] at hc
    simp only [Alts.render] at hw hK
    obtain ⟨h6, h7, h8⟩ := drop_cons (drop_append' hw)
    have h5 : g.drop (d + 1) = treeGraph (d + 1) t ++ (some (d + 1 + t.render.length) :: gr) := by
      rw [(drop_cons hg).2.1]; simp [altsGraph]
    have h9 := (drop_cons (drop_append' h5)).1
    rw [treeGraph_length] at h9
    have hK' : Cont L R word g (d + 1 + t.render.length) K := by
      intro f b hf
      obtain ⟨k, rfl⟩ := Nat.exists_eq_succ_of_ne_zero (by omega : f ≠ 0)
      simp only [gen, h6, h9]
      rw [if_neg (by decide), if_pos trivial]
      exact hK k b (by omega)
    have ih := gen_tree hL hR t (clean_canonical t hc) (d + 1) _ _ K hw h5 hK'
    simp only [commas, collect, ih f b hf, Alts.alternatives]
    simp
  | .more t a, hc, d, wr, gr, K, comma, hcm, hw, hg, hK, f, b, hf => by
    simp only [Alts.Clean] at hc
    have hw' : word.drop (d + 1) = t.render ++ lit ',' :: (a.render ++ lit '}' :: wr) := by
      rw [hw]; simp [Alts.render]
    obtain ⟨h2, h3, hlt⟩ := drop_cons (drop_append' hw')
    have h5 : g.drop (d + 1) = treeGraph (d + 1) t ++
        (some (d + 1 + t.render.length + 1 + firstLen a) ::
        (altsGraph (d + 1 + t.render.length + 1) true a ++ gr)) := by
      rw [(drop_cons hg).2.1]; simp [altsGraph]
    have hg' := drop_append' h5
    rw [treeGraph_length] at hg'
    have h9 := (drop_cons hg').1
    have ek : d + 1 + t.render.length + 1 + a.render.length + 1 =
        d + 1 + (Alts.more t a).render.length + 1 := by simp [Alts.render]; omega
    rw [← ek] at hK
    have hsk := skipCommas_spec word g a (d + 1 + t.render.length) wr gr (word.length + 1) h3 hg'
      (by omega)
    have hcl := (drop_cons (drop_append' h3)).2.2
    have hK' : Cont L R word g (d + 1 + t.render.length) K := by
      intro f b hf
      obtain ⟨k, rfl⟩ := Nat.exists_eq_succ_of_ne_zero (by omega : f ≠ 0)
      simp only [gen, h2, h9]
      rw [if_pos trivial, hsk]
      exact hK k b (by omega)
    have ih := gen_tree hL hR t (clean_canonical t hc.1) (d + 1) _ _ K hw' h5 hK'
    have iha := gen_alts hL hR a hc.2 (d + 1 + t.render.length) wr gr K true (by simp) h3 hg' hK f b
      (by omega)
    have e1 : collect (fun d => gen L R word g f (d + 1) b) [d] =
        some ((t.expand (seqs L R)).flatMap (fun x => K (b ++ x))) := by
      simp [collect, ih f b hf]
    have := collect_append _ [d] _ _ _ e1 iha
    simp only [List.cons_append, List.nil_append] at this
    simp only [commas, this, Alts.alternatives, List.flatMap_append]
end

end

theorem expand_noGroup (seq : CWord → Option (List CWord)) : ∀ (t : Tree), hasGroup t = false →
    t.expand seq = [t.render]
  | .nil, _ => rfl
  | .chr c r, h => by simp [Tree.expand, Tree.render, expand_noGroup seq r h]

theorem hasBraces_of_group : ∀ (t : Tree), hasGroup t = true → hasBraces t.render = true
  | .chr c r, h => by
    have ih := hasBraces_of_group r h
    simp only [hasBraces, Tree.render, text, List.map_cons, List.dropWhile_cons] at ih ⊢
    split
    · exact ih
    · -- the remaining text contains a `}`
      simp only [List.drop_one, List.tail_cons]
      have : ∀ l : List Char, ((l.dropWhile (· != '{')).drop 1).contains '}' = true →
          l.contains '}' = true := by
        intro l hl
        simp only [List.contains_iff_mem] at hl ⊢
        exact (List.dropWhile_sublist _).subset ((List.drop_sublist _ _).subset hl)
      exact this _ ih
  | .group a r, _ => by
    simp [hasBraces, Tree.render, text]

/-- **C16.** Brace expansion of the text of a tree that reads its braces correctly is the product
of the alternatives, leftmost slowest; unpaired, comma-less (unless numeric) and quoted braces stand
for themselves. -/
theorem C16_brace_product {L : Locale} {R : LongRange} (hL : L.Ok) (hR : R.Ok) (t : Tree)
    (ht : t.Canonical) :
    expandBrace L R t.render =
      some (t.expand (sequenceWords L.space R.lmin R.lmax)) := by
  simp only [expandBrace]
  split
  · rename_i hb
    have : hasGroup t = false := by
      cases h : hasGroup t with
      | false => rfl
      | true => rw [hasBraces_of_group t h] at hb; cases hb
    rw [expand_noGroup _ t this]
  · obtain ⟨g', stk', ps', h1, h2, h3⟩ := scan_top t.render t ht [] [] [] false [] (by simp) rfl
      .nil (by simp)
    rw [h1]
    simp only [Bool.false_or]
    split
    · rename_i hn
      rw [expand_noGroup _ t (by simpa using hn)]
    · rw [clearStack_chains h2, h3]
      simp only
      have hend : Cont L R t.render (treeGraph 0 t) t.render.length (fun b => [b]) := by
        intro f b hf
        obtain ⟨k, rfl⟩ := Nat.exists_eq_succ_of_ne_zero (by omega : f ≠ 0)
        simp [gen]
      have := gen_tree (word := t.render) (g := treeGraph 0 t) hL hR t ht 0 [] [] (fun b => [b])
        (by simp) (by simp)
        (by simpa using hend) (t.render.length + 1) [] (by omega)
      have e : setNone [] ([] : List (List Nat)).flatten ++ treeGraph ([] : List (Option Nat)).length t =
          treeGraph 0 t := by simp [setNone]
      rw [e, this]
      simp

/-- Reads the alternatives up to the first unpaired closing brace. -/
def closeGroup : Tree → Option (Alts × Tree)
  | .nil => none
  | .chr c r =>
    if c = lit '}' then some (.one .nil, r)
    else
      match closeGroup r with
      | none => none
      | some (a, r') =>
        if c = lit ',' then some (.more .nil a, r')
        else match a with
          | .one t => some (.one (.chr c t), r')
          | .more t a => some (.more (.chr c t) a, r')
  | .group b r =>
    match closeGroup r with
    | none => none
    | some (a, r') =>
      match a with
      | .one t => some (.one (.group b t), r')
      | .more t a => some (.more (.group b t) a, r')

/-- The reading of a word. -/
def readTree : CWord → Tree
  | [] => .nil
  | c :: w =>
    let t := readTree w
    if c = lit '{' then
      match closeGroup t with
      | some (a, r) => .group a r
      | none => .chr c t
    else .chr c t

theorem closeGroup_none : ∀ (t : Tree), closeGroup t = none → t.NoClose
  | .nil, _ => trivial
  | .chr c r, h => by
    simp only [closeGroup] at h
    split at h
    · cases h
    · rename_i hc
      split at h
      · rename_i hr
        exact ⟨hc, closeGroup_none r hr⟩
      · rename_i a r' hr
        split at h
        · cases h
        · split at h <;> cases h
  | .group b r, h => by
    simp only [closeGroup] at h
    split at h
    · rename_i hr
      exact closeGroup_none r hr
    · split at h <;> cases h

theorem noClose_closeGroup : ∀ (t : Tree), t.NoClose → closeGroup t = none
  | .nil, _ => rfl
  | .chr c r, h => by simp [closeGroup, h.1, noClose_closeGroup r h.2]
  | .group b r, h => by simp [closeGroup, noClose_closeGroup r h]

theorem closeGroup_some : ∀ (t : Tree), t.Canonical → ∀ (a : Alts) (r : Tree),
    closeGroup t = some (a, r) → t.render = a.render ++ lit '}' :: r.render ∧ a.Clean ∧ r.Canonical
  | .nil, _, a, r, h => by cases h
  | .chr c t, hc, a, r, h => by
    simp only [closeGroup] at h
    split at h
    · rename_i hcl
      cases h
      subst hcl
      exact ⟨by simp [Tree.render, Alts.render], trivial, hc.2⟩
    · rename_i hcl
      split at h
      · cases h
      · rename_i a' r' hr
        obtain ⟨h1, h2, h3⟩ := closeGroup_some t hc.2 a' r' hr
        have hno : c ≠ lit '{' := by
          intro e
          have := noClose_closeGroup t (hc.1 e)
          rw [this] at hr; cases hr
        split at h
        · rename_i hcm
          cases h
          subst hcm
          exact ⟨by simp [Tree.render, Alts.render, h1], ⟨trivial, h2⟩, h3⟩
        · rename_i hcm
          have hsp : ¬ special c := by rintro (h | h | h) <;> contradiction
          split at h
          · cases h
            exact ⟨by simp [Tree.render, Alts.render, h1], ⟨hsp, h2⟩, h3⟩
          · cases h
            exact ⟨by simp [Tree.render, Alts.render, h1], ⟨⟨hsp, h2.1⟩, h2.2⟩, h3⟩
  | .group b t, hc, a, r, h => by
    simp only [closeGroup] at h
    split at h
    · cases h
    · rename_i a' r' hr
      obtain ⟨h1, h2, h3⟩ := closeGroup_some t hc.2 a' r' hr
      split at h
      · cases h
        exact ⟨by simp [Tree.render, Alts.render, h1], ⟨hc.1, h2⟩, h3⟩
      · cases h
        exact ⟨by simp [Tree.render, Alts.render, h1], ⟨⟨hc.1, h2.1⟩, h2.2⟩, h3⟩

/-- **C16**: every word has such a reading. -/
theorem C16_every_word_has_tree : ∀ (w : CWord), (readTree w).render = w ∧ (readTree w).Canonical
  | [] => ⟨rfl, trivial⟩
  | c :: w => by
    obtain ⟨h1, h2⟩ := C16_every_word_has_tree w
    simp only [readTree]
    split
    · rename_i hc
      subst hc
      split
      · rename_i a r hr
        obtain ⟨h3, h4, h5⟩ := closeGroup_some _ h2 a r hr
        exact ⟨by rw [Tree.render, ← h3, h1], h4, h5⟩
      · rename_i hr
        exact ⟨by rw [Tree.render, h1], fun _ => closeGroup_none _ hr, h2⟩
    · rename_i hc
      exact ⟨by rw [Tree.render, h1], fun e => absurd e hc, h2⟩

/-- **C16** for arbitrary words: brace expansion never fails and yields the expansion of a correct
reading of the word. -/
theorem C16_brace_expansion {L : Locale} {R : LongRange} (hL : L.Ok) (hR : R.Ok) (w : CWord) :
    ∃ t : Tree, t.render = w ∧ t.Canonical ∧
      expandBrace L R w = some (t.expand (sequenceWords L.space R.lmin R.lmax)) := by
  obtain ⟨h1, h2⟩ := C16_every_word_has_tree w
  refine ⟨readTree w, h1, h2, ?_⟩
  have := C16_brace_product hL hR _ h2
  rwa [h1] at this

/-- **C16**: a word without unquoted literal braces (for example a quoted one) is unchanged. -/
theorem C16_quoted_braces_unchanged {L : Locale} {R : LongRange} (hL : L.Ok) (hR : R.Ok) (w : CWord)
    (h : ∀ c ∈ w, c ≠ lit '{') : expandBrace L R w = some [w] := by
  obtain ⟨h1, h2⟩ := C16_every_word_has_tree w
  have hg : ∀ (t : Tree), (∀ c ∈ t.render, c ≠ lit '{') → hasGroup t = false := by
    intro t
    induction t using Tree.rec (motive_2 := fun _ => True) with
    | nil => simp [hasGroup]
    | chr c r ih => intro h; exact ih (fun x hx => h x (by simp [Tree.render, hx]))
    | group a r _ _ => intro h; exact absurd rfl (h (lit '{') (by simp [Tree.render]))
    | one _ _ => trivial
    | more _ _ _ _ => trivial
  have := C16_brace_product hL hR _ h2
  rw [h1, expand_noGroup _ _ (hg _ (by rw [h1]; exact h)), h1] at this
  exact this

/-! ## Non-vacuity -/

/-- A word of unquoted literal characters. -/
def litWord (s : List Char) : CWord := s.map lit

/-- The texts of the expansion of a literal word without sequences. -/
def braceTexts (s : List Char) : List (List Char) :=
  ((readTree (litWord s)).expand (fun _ => none)).map text

/-- `a{b,c{d,e}}f` -/
example : braceTexts ['a', '{', 'b', ',', 'c', '{', 'd', ',', 'e', '}', '}', 'f'] =
    [['a', 'b', 'f'], ['a', 'c', 'd', 'f'], ['a', 'c', 'e', 'f']] := by decide
/-- `{a}{b,{c,d}`: a group without comma and an unpaired brace stand for themselves. -/
example : braceTexts ['{', 'a', '}', '{', 'b', ',', '{', 'c', ',', 'd', '}'] =
    [['{', 'a', '}', '{', 'b', ',', 'c'], ['{', 'a', '}', '{', 'b', ',', 'd']] := by decide
/-- `{x,y}{1,2}`: the leftmost choice varies slowest. -/
example : braceTexts ['{', 'x', ',', 'y', '}', '{', '1', ',', '2', '}'] =
    [['x', '1'], ['x', '2'], ['y', '1'], ['y', '2']] := by decide
example : sequence? cLocale.space long64.lmin long64.lmax ['0', '8', '.', '.', '+', '1', '0'] =
    some ⟨8, 10, 1, true, 2⟩ := by rfl
example : showInt false 3 (-8) = ['-', '0', '8'] := by simp [showInt]; rfl

end Yash.Expand
