import Verif.Expand.BraceText
/-! # Brace expansion: the graph built by the scan -/
set_option autoImplicit false
set_option linter.unusedSimpArgs false

namespace Yash.Expand

open Spec

/-- Length of the first alternative. -/
def firstLen : Alts → Nat
  | .one t => t.render.length
  | .more t _ => t.render.length

mutual
/-- The graph of a tree whose text starts at index `n`. -/
def treeGraph (n : Nat) : Tree → List (Option Nat)
  | .nil => []
  | .chr _ r => none :: treeGraph (n + 1) r
  | .group a r =>
    some (n + 1 + firstLen a) ::
      (altsGraph (n + 1) false a ++ treeGraph (n + 1 + a.render.length + 1) r)
/-- The graph of alternatives whose text starts at index `n` and of the closing brace; `comma`
tells whether there is a comma in front. -/
def altsGraph (n : Nat) (comma : Bool) : Alts → List (Option Nat)
  | .one t => treeGraph n t ++ [if comma then some (n + t.render.length) else none]
  | .more t a =>
    treeGraph n t ++
      (some (n + t.render.length + 1 + firstLen a) :: altsGraph (n + t.render.length + 1) true a)
end

mutual
theorem treeGraph_length (n : Nat) : ∀ t : Tree, (treeGraph n t).length = t.render.length
  | .nil => rfl
  | .chr _ r => by simp [treeGraph, Tree.render, treeGraph_length (n + 1) r]
  | .group a r => by
    simp [treeGraph, Tree.render, altsGraph_length (n + 1) false a, treeGraph_length _ r]
    omega
theorem altsGraph_length (n : Nat) (comma : Bool) :
    ∀ a : Alts, (altsGraph n comma a).length = a.render.length + 1
  | .one t => by simp [altsGraph, Alts.render, treeGraph_length n t]
  | .more t a => by
    simp [altsGraph, Alts.render, treeGraph_length n t, altsGraph_length _ true a]
    omega
end

/-- Whether there is a group. -/
def hasGroup : Tree → Bool
  | .nil => false
  | .chr _ r => hasGroup r
  | .group _ _ => true

theorem scanStep_plain {word : CWord} {s : Scan} {c : CChar} (h : ¬ special c) :
    scanStep word s c = some { s with graph := s.graph ++ [none] } := by
  obtain ⟨ch, cc⟩ := c
  simp only [special, lit, Prod.mk.injEq, not_or, not_and] at h
  simp only [scanStep]
  split
  · rename_i hc
    rw [if_neg (fun e => h.1 e hc), if_neg (fun e => h.2.1 e hc), if_neg (fun e => h.2.2 e hc)]
  · rfl

mutual
theorem scan_tree (word : CWord) : ∀ (t : Tree), t.Clean →
    ∀ (pre rest : CWord) (g : List (Option Nat)) (stk : List (Nat × Nat)) (f : Bool),
    word = pre ++ (t.render ++ rest) → pre.length = g.length →
    scanLoop word (t.render ++ rest) ⟨g, stk, f⟩ =
      scanLoop word rest ⟨g ++ treeGraph g.length t, stk, f || hasGroup t⟩
  | .nil, _, pre, rest, g, stk, f, hw, hl => by simp [Tree.render, treeGraph, hasGroup]
  | .chr c r, hc, pre, rest, g, stk, f, hw, hl => by
    simp only [Tree.Clean] at hc
    simp only [Tree.render, List.cons_append, scanLoop, scanStep_plain hc.1]
    rw [scan_tree word r hc.2 (pre ++ [c]) rest (g ++ [none]) stk f
      (by rw [hw]; simp [Tree.render]) (by simp [hl])]
    simp [treeGraph, hasGroup]
  | .group a r, hc, pre, rest, g, stk, f, hw, hl => by
    simp only [Tree.Clean] at hc
    simp only [Tree.render, List.cons_append, scanLoop]
    have h1 : scanStep word ⟨g, stk, f⟩ (lit '{') =
        some ⟨g ++ [none], (g.length, g.length) :: stk, f⟩ := by
      simp [scanStep]
    rw [h1]
    simp only
    have e : a.render ++ lit '}' :: r.render ++ rest =
        a.render ++ lit '}' :: (r.render ++ rest) := by simp
    rw [e, scan_alts word a hc.1 (pre ++ [lit '{']) (r.render ++ rest) (g ++ [none]) stk f
      g.length g.length false (by rw [hw]; simp [Tree.render]) (by simp [hl]) (by simp)
      (by rw [hw, ← hl]; simp [Tree.render])]
    rw [scan_tree word r hc.2 (pre ++ lit '{' :: (a.render ++ [lit '}'])) rest _ stk true
      (by rw [hw]; simp [Tree.render])
      (by simp [altsGraph_length, hl])]
    have e2 : (g ++ [none]).set g.length (some (g.length + 1 + firstLen a)) =
        g ++ [some (g.length + 1 + firstLen a)] := by simp
    simp only [List.length_append, List.length_cons, List.length_nil, e2, hasGroup, treeGraph,
      altsGraph_length, Nat.zero_add]
    simp [Nat.add_assoc, Nat.add_comm, Nat.add_left_comm]
theorem scan_alts (word : CWord) : ∀ (a : Alts), a.Clean →
    ∀ (pre rest : CWord) (g : List (Option Nat)) (stk : List (Nat × Nat)) (f : Bool)
      (o l : Nat) (comma : Bool),
    word = pre ++ (a.render ++ lit '}' :: rest) → pre.length = g.length → l < g.length →
    (word[l]?).map Prod.fst = some (if comma then ',' else '{') →
    scanLoop word (a.render ++ lit '}' :: rest) ⟨g, (o, l) :: stk, f⟩ =
      scanLoop word rest
        ⟨g.set l (some (g.length + firstLen a)) ++ altsGraph g.length comma a, stk, true⟩
  | .one t, hc, pre, rest, g, stk, f, o, l, comma, hw, hl, hlt, hword => by
    simp only [Alts.Clean] at hc
    simp only [Alts.render]
    rw [scan_tree word t hc pre (lit '}' :: rest) g ((o, l) :: stk) f hw hl]
    have h1 : scanStep word ⟨g ++ treeGraph g.length t, (o, l) :: stk, f || hasGroup t⟩ (lit '}') =
        some ⟨(g ++ treeGraph g.length t).set l (some (g.length + t.render.length)) ++
          [if comma then some (g.length + t.render.length) else none], stk, true⟩ := by
      simp only [scanStep]
      rw [if_pos trivial, if_neg (by decide), if_neg (by decide), if_pos trivial]
      simp only [List.length_append, treeGraph_length]
      rw [if_pos (by omega), hword]
      cases comma <;> simp
    simp only [scanLoop, h1]
    rw [List.set_append_left _ _ hlt]
    simp [firstLen, altsGraph]
  | .more t a, hc, pre, rest, g, stk, f, o, l, comma, hw, hl, hlt, hword => by
    simp only [Alts.Clean] at hc
    have e : (Alts.more t a).render ++ lit '}' :: rest =
        t.render ++ lit ',' :: (a.render ++ lit '}' :: rest) := by simp [Alts.render]
    rw [e] at hw ⊢
    rw [scan_tree word t hc.1 pre (lit ',' :: (a.render ++ lit '}' :: rest)) g _ f hw hl]
    have h1 : scanStep word ⟨g ++ treeGraph g.length t, (o, l) :: stk, f || hasGroup t⟩ (lit ',') =
        some ⟨(g ++ treeGraph g.length t).set l (some (g.length + t.render.length)) ++ [none],
          (o, g.length + t.render.length) :: stk, f || hasGroup t⟩ := by
      simp only [scanStep]
      rw [if_pos trivial, if_neg (by decide), if_pos trivial]
      simp only [List.length_append, treeGraph_length]
      rw [if_pos (by omega)]
    simp only [scanLoop, h1]
    rw [List.set_append_left _ _ hlt]
    rw [scan_alts word a hc.2 (pre ++ (t.render ++ [lit ','])) rest _ stk _ o
      (g.length + t.render.length) true (by rw [hw]; simp)
      (by simp [treeGraph_length, hl])
      (by simp [treeGraph_length])
      (by rw [hw, ← hl]; simp)]
    have e2 : ∀ x : Option Nat, ((g.set l (some (g.length + t.render.length)) ++ treeGraph g.length t) ++
        [none]).set (g.length + t.render.length) x =
        (g.set l (some (g.length + t.render.length)) ++ treeGraph g.length t) ++ [x] := by
      intro x
      rw [List.set_append_right _ _ (by simp [treeGraph_length])]
      simp [treeGraph_length]
    rw [e2]
    simp only [List.length_append, List.length_set, treeGraph_length, List.length_cons,
      List.length_nil, Nat.zero_add, firstLen, altsGraph]
    simp
end

/-! ## Unmatched braces -/

/-- Sets the given entries to `none`. -/
def setNone (g : List (Option Nat)) (l : List Nat) : List (Option Nat) :=
  l.foldl (fun g i => g.set i none) g

theorem setNone_length (g : List (Option Nat)) (l : List Nat) : (setNone g l).length = g.length := by
  induction l generalizing g with
  | nil => rfl
  | cons a l ih => simp only [setNone, List.foldl_cons] at *; rw [ih]; simp

theorem setNone_getElem? (g : List (Option Nat)) (l : List Nat) (i : Nat) :
    (setNone g l)[i]? = if i ∈ l ∧ i < g.length then some none else g[i]? := by
  induction l generalizing g with
  | nil => simp [setNone]
  | cons a l ih =>
    have := ih (g.set a none)
    simp only [setNone, List.foldl_cons] at this ⊢
    rw [this]
    simp only [List.length_set, List.mem_cons, List.getElem?_set]
    by_cases h1 : i = a
    · subst h1
      by_cases h2 : i < g.length
      · simp [h2]
      · simp [h2]
    · simp [h1, Ne.symm h1]

/-- A chain of graph entries through the given indices, ending in `none`. -/
inductive IsPath (g : List (Option Nat)) : Nat → List Nat → Nat → Prop
  | single (x : Nat) : g[x]? = some none → IsPath g x [x] x
  | cons (x y : Nat) (p : List Nat) (l : Nat) : g[x]? = some (some y) → x < y →
      IsPath g y p l → IsPath g x (x :: p) l

theorem IsPath.ge {g : List (Option Nat)} {o l : Nat} {p : List Nat} (h : IsPath g o p l) :
    ∀ x ∈ p, o ≤ x := by
  induction h with
  | single x _ => simp
  | cons x y p l _ hlt _ ih =>
    intro z hz
    rcases List.mem_cons.1 hz with rfl | hz
    · exact Nat.le_refl _
    · exact Nat.le_of_lt (Nat.lt_of_lt_of_le hlt (ih z hz))

theorem IsPath.lt_length {g : List (Option Nat)} {o l : Nat} {p : List Nat} (h : IsPath g o p l) :
    ∀ x ∈ p, x < g.length := by
  induction h with
  | single x h => intro z hz; simp at hz; subst hz; exact (List.getElem?_eq_some_iff.1 h).1
  | cons x y p l h _ _ ih =>
    intro z hz
    rcases List.mem_cons.1 hz with rfl | hz
    · exact (List.getElem?_eq_some_iff.1 h).1
    · exact ih z hz

theorem IsPath.mem_last {g : List (Option Nat)} {o l : Nat} {p : List Nat} (h : IsPath g o p l) :
    l ∈ p ∧ o ∈ p ∧ (∀ x ∈ p, x ≤ l) ∧ g[l]? = some none := by
  induction h with
  | single x h => simp [h]
  | cons x y p l h hlt hp ih =>
    obtain ⟨h1, h2, h3, h4⟩ := ih
    refine ⟨by simp [h1], by simp, ?_, h4⟩
    intro z hz
    rcases List.mem_cons.1 hz with rfl | hz
    · exact Nat.le_trans (Nat.le_of_lt hlt) (h3 y h2)
    · exact h3 z hz

theorem IsPath.congr {g g' : List (Option Nat)} {o l : Nat} {p : List Nat} (h : IsPath g o p l)
    (hg : ∀ x ∈ p, g'[x]? = g[x]?) : IsPath g' o p l := by
  induction h with
  | single x h => exact .single x (by rw [hg x (by simp), h])
  | cons x y p l h hlt _ ih =>
    exact .cons x y p l (by rw [hg x (by simp), h]) hlt (ih (fun z hz => hg z (by simp [hz])))

/-- Extending a path by the next index. -/
theorem IsPath.extend {g g' : List (Option Nat)} {o l n : Nat} {p : List Nat} (h : IsPath g o p l)
    (hg : ∀ x ∈ p, x ≠ l → g'[x]? = g[x]?) (h1 : g'[l]? = some (some n)) (hn : l < n)
    (h2 : g'[n]? = some none) : IsPath g' o (p ++ [n]) n := by
  induction h with
  | single x _ => exact .cons x n [n] n h1 hn (.single n h2)
  | cons x y p l h hlt hp ih =>
    refine .cons x y _ n ?_ hlt (ih (fun z hz => hg z (by simp [hz])) h1 hn)
    rw [hg x (by simp) ?_, h]
    have := hp.mem_last
    have := hp.ge l this.1
    omega

theorem clearChain_path {g : List (Option Nat)} {o l : Nat} {p : List Nat} (h : IsPath g o p l)
    (fuel : Nat) (hf : g.length + 1 ≤ fuel + o) : clearChain fuel g o = some (setNone g p) := by
  induction p generalizing g o fuel with
  | nil => cases h
  | cons z p ih =>
    cases h with
    | single x hx =>
      have := (List.getElem?_eq_some_iff.1 hx).1
      obtain ⟨k, rfl⟩ := Nat.exists_eq_succ_of_ne_zero (by omega : fuel ≠ 0)
      simp only [clearChain, hx]
      congr 1
      apply List.ext_getElem?
      intro i
      rw [setNone_getElem?]
      split
      · rename_i hi; simp at hi; rw [hi.1, hx]
      · rfl
    | cons x y p l hx hlt hp =>
      have := (List.getElem?_eq_some_iff.1 hx).1
      obtain ⟨k, rfl⟩ := Nat.exists_eq_succ_of_ne_zero (by omega : fuel ≠ 0)
      simp only [clearChain, hx]
      have hp' : IsPath (g.set z none) y p l := hp.congr (fun w hw => by
        have := hp.ge w hw
        rw [List.getElem?_set_ne (by omega)])
      rw [ih hp' k (by simp; omega)]
      rfl

/-- The stack of unmatched braces: a path for each, later ones beyond the earlier ones. -/
inductive Chains (g : List (Option Nat)) : List (List Nat) → List (Nat × Nat) → Prop
  | nil : Chains g [] []
  | cons (o l : Nat) (p : List Nat) (ps : List (List Nat)) (stk : List (Nat × Nat)) :
      IsPath g o p l → (∀ y ∈ ps.flatten, y < o) → Chains g ps stk →
      Chains g (p :: ps) ((o, l) :: stk)

theorem Chains.lt_length {g : List (Option Nat)} {ps : List (List Nat)} {stk : List (Nat × Nat)}
    (h : Chains g ps stk) : ∀ x ∈ ps.flatten, x < g.length := by
  induction h with
  | nil => simp
  | cons o l p ps stk hp _ _ ih =>
    intro x hx
    rw [List.flatten_cons] at hx
    rcases List.mem_append.1 hx with hx | hx
    · exact hp.lt_length x hx
    · exact ih x hx

theorem Chains.congr {g g' : List (Option Nat)} {ps : List (List Nat)} {stk : List (Nat × Nat)}
    (h : Chains g ps stk) (hg : ∀ x ∈ ps.flatten, g'[x]? = g[x]?) : Chains g' ps stk := by
  induction h with
  | nil => exact .nil
  | cons o l p ps stk hp hlt _ ih =>
    refine .cons o l p ps stk (hp.congr (fun x hx => hg x (by simp [hx]))) hlt
      (ih (fun x hx => hg x ?_))
    rw [List.flatten_cons]; exact List.mem_append_right _ hx

theorem setNone_append (g : List (Option Nat)) (l m : List Nat) :
    setNone g (l ++ m) = setNone (setNone g l) m := by
  simp [setNone]

theorem clearStack_chains {g : List (Option Nat)} {ps : List (List Nat)} {stk : List (Nat × Nat)}
    (h : Chains g ps stk) : clearStack stk g = some (setNone g ps.flatten) := by
  induction ps generalizing g stk with
  | nil => cases h; rfl
  | cons p ps ih =>
    cases h with
    | cons o l p ps stk hp hlt hc =>
      simp only [clearStack]
      rw [clearChain_path hp _ (by omega)]
      simp only
      rw [ih (g := setNone g p) (hc.congr (fun x hx => ?_))]
      · rw [List.flatten_cons, setNone_append]
      · rw [setNone_getElem?, if_neg]
        rintro ⟨h1, _⟩
        have := hp.ge x h1
        have := hlt x hx
        omega

theorem setNone_extend (g e : List (Option Nat)) (l : List Nat) (hl : ∀ x ∈ l, x < g.length) :
    setNone (g ++ e) l = setNone g l ++ e := by
  induction l generalizing g with
  | nil => rfl
  | cons a l ih =>
    simp only [setNone, List.foldl_cons] at *
    rw [List.set_append_left _ _ (hl a (by simp))]
    exact ih _ (fun x hx => by simpa using hl x (by simp [hx]))

theorem Chains.append {g : List (Option Nat)} {ps : List (List Nat)} {stk : List (Nat × Nat)}
    (h : Chains g ps stk) (e : List (Option Nat)) : Chains (g ++ e) ps stk :=
  h.congr (fun x hx => List.getElem?_append_left (h.lt_length x hx))

/-- The scan of a whole word: what remains on the stack are chains, and clearing them gives the
graph of the tree. -/
theorem scan_top (word : CWord) : ∀ (t : Tree), t.Canonical →
    ∀ (pre : CWord) (g : List (Option Nat)) (stk : List (Nat × Nat)) (f : Bool)
      (ps : List (List Nat)),
    word = pre ++ t.render → pre.length = g.length → Chains g ps stk →
    (ps ≠ [] → t.NoClose) →
    ∃ g' stk' ps', scanLoop word t.render ⟨g, stk, f⟩ = some ⟨g', stk', f || hasGroup t⟩ ∧
      Chains g' ps' stk' ∧
      setNone g' ps'.flatten = setNone g ps.flatten ++ treeGraph g.length t
  | .nil, _, pre, g, stk, f, ps, hw, hl, hch, hnc => by
    exact ⟨g, stk, ps, by simp [Tree.render, scanLoop, hasGroup], hch, by simp [treeGraph]⟩
  | .group a r, hc, pre, g, stk, f, ps, hw, hl, hch, hnc => by
    simp only [Tree.Canonical] at hc
    have e : (Tree.group a r).render = (Tree.group a .nil).render ++ r.render := by
      simp [Tree.render]
    rw [e] at hw ⊢
    rw [scan_tree word (.group a .nil) ⟨hc.1, trivial⟩ pre r.render g stk f hw hl]
    have hlen : (pre ++ (Tree.group a .nil).render).length =
        (g ++ treeGraph g.length (.group a .nil)).length := by
      simp [hl, treeGraph_length]
    obtain ⟨g', stk', ps', h1, h2, h3⟩ := scan_top word r hc.2
      (pre ++ (Tree.group a .nil).render) _ stk (f || hasGroup (.group a .nil)) ps
      (by rw [hw]; simp) hlen (hch.append _) (fun h => hnc h)
    refine ⟨g', stk', ps', ?_, h2, ?_⟩
    · rw [h1]; simp [hasGroup]
    · rw [h3, setNone_extend _ _ _ hch.lt_length]
      simp [treeGraph, Tree.render, treeGraph_length, altsGraph_length]
      congr 1
      omega
  | .chr c r, hc, pre, g, stk, f, ps, hw, hl, hch, hnc => by
    simp only [Tree.Canonical] at hc
    simp only [Tree.render, scanLoop]
    have hw' : word = (pre ++ [c]) ++ r.render := by rw [hw]; simp [Tree.render]
    -- the step appends `none` and keeps the stack
    have plain : scanStep word ⟨g, stk, f⟩ c = some ⟨g ++ [none], stk, f⟩ → 
        ∃ g' stk' ps', scanLoop word (c :: r.render) ⟨g, stk, f⟩ =
            some ⟨g', stk', f || hasGroup (.chr c r)⟩ ∧ Chains g' ps' stk' ∧
          setNone g' ps'.flatten = setNone g ps.flatten ++ treeGraph g.length (.chr c r) := by
      intro hs
      obtain ⟨g', stk', ps', h1, h2, h3⟩ := scan_top word r hc.2 (pre ++ [c]) (g ++ [none]) stk f ps
        hw' (by simp [hl]) (hch.append _) (fun h => (hnc h).2)
      refine ⟨g', stk', ps', ?_, h2, ?_⟩
      · simp only [scanLoop, hs, h1, hasGroup]
      · rw [h3, setNone_extend _ _ _ hch.lt_length]
        simp [treeGraph]
    by_cases hsp : special c
    · rcases hsp with rfl | rfl | rfl
      · -- an unmatched `{`
        have hs : scanStep word ⟨g, stk, f⟩ (lit '{') =
            some ⟨g ++ [none], (g.length, g.length) :: stk, f⟩ := by simp [scanStep]
        obtain ⟨g', stk', ps', h1, h2, h3⟩ := scan_top word r hc.2 (pre ++ [lit '{']) (g ++ [none])
          ((g.length, g.length) :: stk) f ([g.length] :: ps) hw' (by simp [hl])
          (.cons _ _ _ _ _ (.single _ (by simp)) hch.lt_length (hch.append _))
          (fun _ => hc.1 rfl)
        refine ⟨g', stk', ps', ?_, h2, ?_⟩
        · simp only [scanLoop, hs, h1, hasGroup]
        · rw [h3, List.flatten_cons, List.singleton_append]
          have : setNone (g ++ [none]) (g.length :: ps.flatten) = setNone (g ++ [none]) ps.flatten := by
            simp [setNone]
          rw [this, setNone_extend _ _ _ hch.lt_length]
          simp [treeGraph]
      · -- a comma
        cases hch with
        | nil => exact plain (by simp [scanStep])
        | cons o l p ps stk hp hlt hch' =>
          have hll := hp.lt_length l hp.mem_last.1
          have hs : scanStep word ⟨g, (o, l) :: stk, f⟩ (lit ',') =
              some ⟨g.set l (some g.length) ++ [none], (o, g.length) :: stk, f⟩ := by
            simp only [scanStep]
            rw [if_pos trivial, if_neg (by decide), if_pos trivial, if_pos hll]
          have hne : ∀ x, x < g.length → x ≠ l →
              (g.set l (some g.length) ++ [none])[x]? = g[x]? := by
            intro x hx hxl
            rw [List.getElem?_append_left (by simpa using hx), List.getElem?_set_ne (Ne.symm hxl)]
          obtain ⟨g', stk', ps', h1, h2, h3⟩ := scan_top word r hc.2 (pre ++ [lit ','])
            (g.set l (some g.length) ++ [none]) ((o, g.length) :: stk) f ((p ++ [g.length]) :: ps)
            hw' (by simp [hl])
            (.cons _ _ _ _ _
              (hp.extend (fun x hx hxl => hne x (hp.lt_length x hx) hxl)
                (by rw [List.getElem?_append_left (by simpa using hll)]; simp [hll]) hll
                (by simp))
              hlt
              (hch'.congr (fun x hx => hne x (hch'.lt_length x hx)
                (by have := hlt x hx; have := hp.ge l hp.mem_last.1; omega))))
            (fun _ => (hnc (by simp)).2)
          refine ⟨g', stk', ps', ?_, h2, ?_⟩
          · simp only [scanLoop, hs, h1, hasGroup]
          · rw [h3]
            have : setNone (g.set l (some g.length) ++ [none]) ((p ++ [g.length]) :: ps).flatten =
                setNone g (p :: ps).flatten ++ [none] := by
              apply List.ext_getElem?
              intro i
              rw [setNone_getElem?]
              by_cases hi : i < g.length
              · rw [List.getElem?_append_left (l₁ := setNone _ _) (by rw [setNone_length]; exact hi), setNone_getElem?]
                by_cases him : i ∈ (p :: ps).flatten
                · rw [if_pos, if_pos ⟨him, hi⟩]
                  simp at him ⊢
                  refine ⟨?_, by omega⟩
                  rcases him with h | h
                  · exact Or.inl h
                  · exact Or.inr (Or.inr h)
                · have hni : i ∉ ((p ++ [g.length]) :: ps).flatten := by
                    intro h
                    apply him
                    rw [List.flatten_cons] at h ⊢
                    rcases List.mem_append.1 h with h | h
                    · rcases List.mem_append.1 h with h | h
                      · exact List.mem_append_left _ h
                      · simp at h; omega
                    · exact List.mem_append_right _ h
                  rw [if_neg (fun h => hni h.1), if_neg (fun h => him h.1)]
                  apply hne i hi
                  rintro rfl
                  exact him (by rw [List.flatten_cons]; exact List.mem_append_left _ hp.mem_last.1)
              · rw [List.getElem?_append_right (l₁ := setNone _ _) (by rw [setNone_length]; omega), setNone_length]
                split
                · rename_i h
                  simp at h
                  have : i = g.length := by omega
                  simp [this]
                · rw [List.getElem?_append_right (by simp; omega)]
                  simp
            rw [this]
            simp [treeGraph]
      · -- a closing brace: the stack is empty
        cases hch with
        | nil => exact plain (by simp [scanStep])
        | cons o l p ps stk hp hlt hch' => exact absurd rfl (hnc (by simp)).1
    · exact plain (scanStep_plain hsp)

end Yash.Expand
