import Verif.Alias.Blank
/-!
# Properties of alias substitution (C24, C39)
-/
set_option autoImplicit false

namespace Yash.Alias

open Spec

/-! ### C24 -/

/-- C24, second half: no character of a word that is replaced by an alias comes from the value of
that alias.  Missing (hence `_partial`): the parser goes back in the buffer when text that starts
like an arithmetic expansion turns out to be a command substitution, and then the claim is false,
see `C24_rewound`; a `Reading` only goes forward. -/
theorem C24_never_again_partial (E : Env) (conts : Bool) (src : List Char)
    (org : List (List Origin)) (l : List Item) (cur input : Nat) (used : List (Alias × Nat))
    (hR : Reading E conts src org l cur input used) (i j : Nat) (f : Flags) (hi : cur ≤ i)
    (a : Alias) (src' : List Char) (l' : List Item)
    (h : substituteRange E src i j l f = some (some a, src', l')) (p : Nat) (hp : i ≤ p) :
    ¬ ComesFrom org p a := by
  rintro ⟨os, hos, o, ho, ha⟩
  exact not_from_itself (blocks_reading hR) hi h p hp os hos o ho ha

/-- C24, first half: the number of substitutions in reading a command is bounded by the number of
characters typed and the size of the alias table, whatever the aliases refer to.  Missing: as for
`C24_never_again_partial`. -/
theorem C24_bounded_partial (E : Env) (conts : Bool) (src : List Char)
    (org : List (List Origin)) (l : List Item) (cur input : Nat) (used : List (Alias × Nat))
    (hR : Reading E conts src org l cur input used) (M : Nat)
    (hM : ∀ a ∈ E.aliases, a.value.length ≤ M) :
    used.length ≤ input * (M + 1) ^ E.aliases.length := by
  have := bounded_reading M hM hR
  omega

/-- The aliases `x='y z'` and `y='x '`, which refer to each other. -/
def exEnv : Env :=
  ⟨[⟨['x'], ['y', ' ', 'z'], false⟩, ⟨['y'], ['x', ' '], false⟩], fun c => c == ' ', false⟩

/-- Reading `x`: it is replaced by `y z`, then `y` by `x `, and then `x` is left alone. -/
example : ∃ src org l cur input used,
    Reading exEnv true src org l cur input used ∧ used.length = 2 ∧
    src = ['x', ' ', ' ', 'z', '\n'] ∧ cur = 0 ∧
    ComesFrom org 0 ⟨['x'], ['y', ' ', 'z'], false⟩ ∧
    ∃ l', substituteRange exEnv src 0 1 l ⟨true, false⟩ = some (none, src, l') := by
  refine ⟨_, _, _, _, _, _, .replace 0 1 ⟨true, false⟩ (.replace 0 1 ⟨true, false⟩
    (.more ['x', '\n'] .start) (by decide) (by decide) (by rfl)) (by decide) (by decide) (by rfl),
    by decide, by decide, by decide, ⟨_, rfl, ⟨_, 2⟩, by decide, rfl⟩, _, by rfl⟩

/-- The claim of `C24_never_again_partial` is false of a parser that goes back: with `x='x y'`, if
the text `x;z` is read up to `z` and then once more from its start (as the parser does for the
text inside `$(( $(x;z) ) )`), then the `x` that came from the value of `x` is replaced again. -/
theorem C24_rewound : ∃ (E : Env) (src : List Char) (org : List (List Origin)) (l : List Item)
    (cur input : Nat) (used : List (Alias × Nat)) (a : Alias) (src' : List Char) (l' : List Item),
    Reading E false src org l cur input used ∧ 0 < cur ∧ ComesFrom org 0 a ∧
    substituteRange E src 0 1 l ⟨true, false⟩ = some (some a, src', l') := by
  refine ⟨⟨[⟨['x'], ['x', ' ', 'y'], false⟩], fun c => c == ' ', false⟩, _, _, _, _, _, _,
    ⟨['x'], ['x', ' ', 'y'], false⟩, _, _, .keep 4 5 ⟨true, false⟩ (.replace 0 1 ⟨true, false⟩
    (.more ['x', ';', 'z', '\n'] .start) (by decide) (by decide) (by rfl)) (by decide) (by decide)
    (by rfl), by decide, ⟨_, rfl, ⟨_, 2⟩, by decide, rfl⟩, by rfl⟩

/-- With `x='f\'` and an empty alias `foobar`, reading the two lines `x` and `oobar` makes the
assertion in `shift_aliaslist_index` fail: the line continuation that `x` ends with leaves the limit
of `x` in the middle of the word `foobar`. -/
theorem C24_abort : ∃ (E : Env) (src : List Char) (org : List (List Origin)) (l : List Item)
    (cur input : Nat) (used : List (Alias × Nat)),
    Reading E true src org l cur input used ∧ cur ≤ 0 ∧ 6 ≤ src.length ∧
    substituteRange E src 0 6 l ⟨true, false⟩ = none := by
  refine ⟨⟨[⟨['x'], ['f', '\\'], false⟩, ⟨['f', 'o', 'o', 'b', 'a', 'r'], [], false⟩],
    fun c => c == ' ', false⟩, _, _, _, _, _, _,
    .continuation 1 (.replace 0 1 ⟨true, false⟩
    (.more ['x', '\n', 'o', 'o', 'b', 'a', 'r', '\n'] .start) (by decide) (by decide) (by rfl)) rfl
    (by decide) (by rfl), by decide, by decide, by rfl⟩

/-! ### C39 -/

/-- C39, first half: when a word is replaced, it is the name of a defined alias, it is replaced by
exactly the value of the alias, and it either is in the place of a command word, or follows the
value of a non-global alias that ends with a blank, or the alias is global (and the POSIX mode is
off). -/
theorem C39_replaced (E : Env) (hS : Sane E) (conts : Bool) (src : List Char)
    (org : List (List Origin)) (l : List Item) (cur input : Nat) (used : List (Alias × Nat))
    (hR : Reading E conts src org l cur input used) (i j : Nat) (f : Flags) (hi : cur ≤ i)
    (hle : i ≤ src.length) (a : Alias) (src' : List Char) (l' : List Item)
    (h : substituteRange E src i j l f = some (some a, src', l')) :
    a ∈ E.aliases ∧
    (∃ before after, src = before ++ a.name ++ after ∧ before.length = i ∧
      (before ++ a.name).length = j ∧ src' = before ++ a.value ++ after) ∧
    (f.nonglobal = true ∨ FollowsBlank E src org i ∨ (a.isGlobal = true ∧ E.posix = false)) := by
  obtain ⟨lr, ls, b, hr⟩ := substitute_some h
  obtain ⟨hmem, hname⟩ := lookup_some hr.found
  have hlt := hr.lt
  have hlej := hr.le
  refine ⟨hmem, ⟨src.take i, src.drop j, ?_, ?_, ?_, hr.src_eq⟩, ?_⟩
  · rw [hname]
    have : src.take i = (src.take j).take i := by
      rw [List.take_take]
      congr 1
      omega
    rw [this, List.take_append_drop, List.take_append_drop]
  · rw [List.length_take]
    omega
  · rw [hname, List.length_append, List.length_take, List.length_drop, List.length_take]
    omega
  · have := (ends_expired (ends_reading hS hR) hi hle hr.expired).2
    rw [← this]
    exact hr.allowed

/-- C39, when a word is not replaced the text does not change. -/
theorem C39_kept (E : Env) (src : List Char) (i j : Nat) (l : List Item) (f : Flags)
    (src' : List Char) (l' : List Item)
    (h : substituteRange E src i j l f = some (none, src', l')) : src' = src :=
  (substitute_none h).1

/-- C39, second half: a word that is the name of an alias and is in a place where the alias applies
is replaced, unless an earlier use of the same alias reaches up to the word.  (Where there are no
line continuations; with them, see `C24_abort`.  The hypothesis on `used` says that no value ends in
the middle of the word.) -/
theorem C39_applies (E : Env) (hS : Sane E) (src : List Char)
    (org : List (List Origin)) (l : List Item) (cur input : Nat) (used : List (Alias × Nat))
    (hR : Reading E false src org l cur input used) (i j : Nat) (f : Flags) (hi : cur ≤ i)
    (hij : i < j) (hj : j ≤ src.length) (a : Alias) (ha : a ∈ E.aliases)
    (huniq : ∀ b ∈ E.aliases, b.name = a.name → b = a) (hword : (src.take j).drop i = a.name)
    (hallowed : f.nonglobal = true ∨ FollowsBlank E src org i ∨ (a.isGlobal = true ∧ E.posix = false))
    (heof : f.noeof = true → j < src.length)
    (hfree : ∀ u ∈ used, u.1 = a → u.2 < i) (hmid : ∀ u ∈ used, ¬(i < u.2 ∧ u.2 < j)) :
    ∃ src' l', substituteRange E src i j l f = some (some a, src', l') := by
  have hU := used_reading hR
  have hE := ends_reading hS hR
  have htot : ∃ l' b, removeExpired E.blank src i l = some (l', b) := by
    have : ∀ l : List Item, ∃ r, removeExpired E.blank src i l = some r := by
      intro l
      induction l with
      | nil => exact ⟨_, rfl⟩
      | cons it l ih =>
        rw [removeExpired]
        split
        · split
          · rw [isBlankRange, if_pos (.inr (by omega))]
            split
            · rename_i hn; cases hn
            · exact ⟨_, rfl⟩
            · exact ih
          · exact ih
        · exact ⟨_, rfl⟩
    obtain ⟨r, hr⟩ := this l
    exact ⟨r.1, r.2, hr⟩
  obtain ⟨lr, b, hr⟩ := htot
  obtain ⟨_, hb⟩ := ends_expired hE hi (by omega) hr
  obtain ⟨⟨pre, e, _⟩, _, _⟩ := removeExpired_spec _ _ _ _ _ _ hr
  have hsub : ∀ it ∈ lr, (it.alias, it.limit) ∈ used := by
    intro it hit
    exact hU it (by rw [e]; exact List.mem_append_right _ hit)
  have hlook : lookup E.aliases ((src.take j).drop i) = some a := by
    rw [hword]
    cases hf : lookup E.aliases a.name with
    | none =>
      rw [lookup, List.find?_eq_none] at hf
      exact absurd (beq_self_eq_true a.name) (hf a ha)
    | some b =>
      obtain ⟨h1, h2⟩ := lookup_some hf
      rw [huniq b h1 h2]
  have hne : E.aliases.isEmpty = false := by
    cases hl : E.aliases with
    | nil => rw [hl] at ha; cases ha
    | cons _ _ => rfl
  obtain ⟨ls, hls⟩ := shift_total i ((a.value.length : Int) - ((j - i : Nat) : Int)) lr (by
    intro it hit hlt
    have := hmid _ (hsub it hit)
    dsimp only at this
    omega)
  have hcont : contained lr a i = false := contained_false.2 fun it hit hita =>
    hfree _ (hsub it hit) hita
  have hflag : (f.nonglobal || b) = true ∨ (a.isGlobal = true ∧ E.posix = false) := by
    rcases hallowed with h | h | ⟨h, hp⟩
    · left; rw [h]; rfl
    · left; rw [hb.2 h, Bool.or_true]
    · exact .inr ⟨h, hp⟩
  refine ⟨src.take i ++ a.value ++ src.drop j, addItem ls a (i + a.value.length), ?_⟩
  rw [substituteRange, if_neg (by rw [hne]; exact Bool.false_ne_true), hr]
  dsimp only
  rw [substituteFresh, if_neg (by
      rcases hflag with h | ⟨_, h⟩
      · rw [h]; simp
      · rw [h]; simp), if_neg (by omega), if_neg (by
      intro h
      rw [Bool.and_eq_true, beq_iff_eq] at h
      have := heof h.1
      omega), if_neg (by omega), hlook]
  dsimp only
  rw [if_neg (by
      rcases hflag with h | ⟨h, _⟩
      · rw [h]; simp
      · rw [h]; simp), if_neg (by rw [hcont]; exact Bool.false_ne_true), hls]

/-- Reading `s s` with `s='s '`: the second `s` is not in the place of a command word, but it follows
the value of the first, so it is replaced too. -/
example : ∃ src org l cur input used,
    Reading ⟨[⟨['s'], ['s', ' '], false⟩], fun c => c == ' ', false⟩ false src org l cur input used ∧
    FollowsBlank ⟨[⟨['s'], ['s', ' '], false⟩], fun c => c == ' ', false⟩ src org 3 ∧
    (src.take 4).drop 3 = ['s'] ∧ (∀ u ∈ used, u.2 < 3) ∧
    ∃ src' l', substituteRange ⟨[⟨['s'], ['s', ' '], false⟩], fun c => c == ' ', false⟩ src 3 4 l
      ⟨false, false⟩ = some (some ⟨['s'], ['s', ' '], false⟩, src', l') := by
  refine ⟨_, _, _, _, _, _, .replace 0 1 ⟨true, false⟩
    (.more ['s', ' ', 's', '\n'] .start) (by decide) (by decide) (by rfl),
    ⟨1, ⟨['s'], ['s', ' '], false⟩, _, by decide, rfl, by decide, rfl, ⟨' ', rfl, rfl⟩, ?_⟩, by decide,
    by decide, _, _, by rfl⟩
  intro q c h1 h2 h3
  have : q = 2 := by omega
  subst this
  cases h3
  rfl

example : Sane ⟨[⟨['s'], ['s', ' '], false⟩], fun c => c == ' ', false⟩ :=
  ⟨by decide, by decide, by decide⟩

end Yash.Alias
