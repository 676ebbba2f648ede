import Verif.Read.Remainder
/-!
# C66: what the `read` built-in reads and assigns
-/
set_option autoImplicit false

namespace Yash.Read

open Yash.Expand Yash.Expand.Spec Yash.Read.Spec

/-- The newline that `read_with_prompt` leaves at the end of a line that has one. -/
def ending (e : Bool) : CWord := if e then [Spec.plain '\n'] else []

theorem readOneLine_cons {c : Char} (h : c ≠ '\n') (t : List Char) :
    readOneLine (c :: t) = (c :: (readOneLine t).1, (readOneLine t).2) := by
  rw [readOneLine, if_neg h]

theorem unescape_plain {c : Char} (h : c ≠ '\\') (l : List Char) :
    unescapeLine (c :: l) = (Spec.plain c :: (unescapeLine l).1, (unescapeLine l).2) := by
  rw [unescapeLine]
  · rfl
  · rintro rfl; exact absurd rfl h
  · intro _ _ hc; exact absurd hc h

theorem unescape_escaped {c : Char} (h : c ≠ '\n') (l : List Char) :
    unescapeLine ('\\' :: c :: l) =
      (Spec.quoted c :: (unescapeLine l).1, (unescapeLine l).2) := by
  rw [unescapeLine, if_neg h]; rfl

theorem rwp_unfold (t : List Char) :
    readWithPrompt false t =
      if (unescapeLine (readOneLine t).1).2 = true then
        ((unescapeLine (readOneLine t).1).1, (readOneLine t).2)
      else ((unescapeLine (readOneLine t).1).1 ++ (readWithPrompt false (readOneLine t).2).1,
        (readWithPrompt false (readOneLine t).2).2) := by
  conv => lhs; unfold readWithPrompt
  simp only [Bool.false_eq_true, if_false]
  split <;> simp [*]

theorem rwp_logical {t : List Char} {w : CWord} {e : Bool} {r : List Char}
    (h : Logical t w e r) : readWithPrompt false t = (w ++ ending e, r) := by
  induction h with
  | eof => rw [rwp_unfold]; rfl
  | newline t => rw [rwp_unfold]; rfl
  | plain c t w e r h1 h2 h ih =>
    rw [rwp_unfold] at ih ⊢
    rw [readOneLine_cons h1]
    simp only [unescape_plain h2]
    split at ih
    · rename_i hd
      rw [if_pos hd]
      simp only [Prod.mk.injEq] at ih
      rw [ih.1, ih.2]; rfl
    · rename_i hd
      rw [if_neg hd]
      simp only [Prod.mk.injEq] at ih
      rw [List.cons_append, ih.1, ih.2]; rfl
  | escaped c t w e r h1 h ih =>
    rw [rwp_unfold] at ih ⊢
    rw [readOneLine_cons (by decide), readOneLine_cons h1]
    simp only [unescape_escaped h1]
    split at ih
    · rename_i hd
      rw [if_pos hd]
      simp only [Prod.mk.injEq] at ih
      rw [ih.1, ih.2]; rfl
    · rename_i hd
      rw [if_neg hd]
      simp only [Prod.mk.injEq] at ih
      rw [List.cons_append, ih.1, ih.2]; rfl
  | continued t w e r h ih =>
    rw [rwp_unfold]
    have : readOneLine ('\\' :: '\n' :: t) = (['\\', '\n'], t) := rfl
    rw [this]
    have h2 : unescapeLine ['\\', '\n'] = ([], false) := rfl
    simp [h2, ih]
  | lone => rw [rwp_unfold]; rfl

theorem rwp_raw {t : List Char} {w : CWord} {e : Bool} {r : List Char} (h : Raw t w e r) :
    readWithPrompt true t = (w ++ ending e, r) := by
  induction h with
  | eof => rw [readWithPrompt]; rfl
  | newline t => rw [readWithPrompt]; rfl
  | plain c t w e r h1 h ih =>
    rw [readWithPrompt] at ih ⊢
    simp only [if_true, Prod.mk.injEq, readOneLine_cons h1, List.map_cons] at ih ⊢
    rw [ih.1]
    exact ⟨rfl, ih.2⟩

/-- Every input begins with a line. -/
theorem logical_total (t : List Char) : ∃ w e r, Logical t w e r := by
  induction hn : t.length using Nat.strongRecOn generalizing t with
  | ind n ih =>
    cases t with
    | nil => exact ⟨_, _, _, .eof⟩
    | cons c t =>
      by_cases h1 : c = '\n'
      · subst h1; exact ⟨_, _, _, .newline t⟩
      by_cases h2 : c = '\\'
      · subst h2
        cases t with
        | nil => exact ⟨_, _, _, .lone⟩
        | cons d t =>
          obtain ⟨w, e, r, h⟩ := ih t.length (by simp at hn; omega) t rfl
          by_cases h3 : d = '\n'
          · subst h3; exact ⟨_, _, _, .continued _ _ _ _ h⟩
          · exact ⟨_, _, _, .escaped d _ _ _ _ h3 h⟩
      · obtain ⟨w, e, r, h⟩ := ih t.length (by simp at hn; omega) t rfl
        exact ⟨_, _, _, .plain c _ _ _ _ h1 h2 h⟩

theorem raw_total (t : List Char) : ∃ w e r, Raw t w e r := by
  induction t with
  | nil => exact ⟨_, _, _, .eof⟩
  | cons c t ih =>
    by_cases h1 : c = '\n'
    · subst h1; exact ⟨_, _, _, .newline t⟩
    · obtain ⟨w, e, r, h⟩ := ih
      exact ⟨_, _, _, .plain c _ _ _ _ h1 h⟩

theorem logical_no_newline {t : List Char} {w : CWord} {e : Bool} {r : List Char}
    (h : Logical t w e r) : ∀ c ∈ w, c.1 ≠ '\n' := by
  induction h with
  | eof => simp
  | newline t => simp
  | plain c t w e r h1 h2 h ih =>
    intro x hx
    rcases List.mem_cons.1 hx with rfl | hx
    · exact h1
    · exact ih x hx
  | escaped c t w e r h1 h ih =>
    intro x hx
    rcases List.mem_cons.1 hx with rfl | hx
    · exact h1
    · exact ih x hx
  | continued t w e r h ih => exact ih
  | lone => simp

theorem raw_no_newline {t : List Char} {w : CWord} {e : Bool} {r : List Char}
    (h : Raw t w e r) : ∀ c ∈ w, c.1 ≠ '\n' := by
  induction h with
  | eof => simp
  | newline t => simp
  | plain c t w e r h1 h ih =>
    intro x hx
    rcases List.mem_cons.1 hx with rfl | hx
    · exact h1
    · exact ih x hx

theorem chomp_ending {w : CWord} (hw : ∀ c ∈ w, c.1 ≠ '\n') (e : Bool) :
    chomp (w ++ ending e) = (w, !e) := by
  cases e with
  | true => simp [chomp, ending, Spec.plain]
  | false =>
    simp only [ending, Bool.false_eq_true, if_false, List.append_nil, chomp]
    cases h : w.getLast? with
    | none => rfl
    | some c =>
      obtain ⟨c, k⟩ := c
      have := hw (c, k) (List.mem_of_getLast? h)
      simp [this]

theorem mapM_some {α β : Type} (f : α → Option β) (g : α → β) :
    ∀ l : List α, (∀ a ∈ l, f a = some (g a)) → l.mapM f = some (l.map g) := by
  intro l
  induction l with
  | nil => intro _; rfl
  | cons a l ih =>
    intro h
    rw [List.mapM_cons, h a (by simp), ih (fun x hx => h x (by simp [hx]))]
    rfl

/-- The fields, filled up with empty ones. -/
theorem pad_get (S : Setting) (w : CWord) (count i : Nat) (hi : i < count) :
    ∃ a b, (padFields count (extractFields S.locale S.emptylast (S.ifs.getD defaultIfs) w).1)[i]? =
        some (a, b) ∧ a ≤ b ∧
      text (slice w (a, b)) =
        ((fields S.locale.space S.emptylast (S.ifs.getD defaultIfs) w)[i]?.map text).getD [] := by
  obtain ⟨sp, tail, e1, e2, e3, _⟩ :=
    extractFields_parts S.locale S.emptylast (S.ifs.getD defaultIfs) w
  rw [← C14_fieldsplit_spec, fieldsplit1]
  generalize (extractFields S.locale S.emptylast (S.ifs.getD defaultIfs) w).1 = list at e2
  unfold padFields
  by_cases h : i < list.length
  · rw [List.getElem?_append_left h]
    have hs := List.getElem?_eq_getElem h
    refine ⟨list[i].1, list[i].2, hs, ?_, ?_⟩
    · exact (e3 _ (List.mem_of_getElem? (e2 i _ hs))).1
    · rw [List.getElem?_map, hs]; rfl
  · rw [List.getElem?_append_right (by omega), List.getElem?_replicate, if_pos (by omega)]
    refine ⟨0, 0, rfl, Nat.le_refl _, ?_⟩
    rw [List.getElem?_map, List.getElem?_eq_none (by omega)]
    simp [slice]

theorem pad_long (S : Setting) (w : CWord) (count : Nat)
    (h : count ≤ (fields S.locale.space S.emptylast (S.ifs.getD defaultIfs) w).length) :
    padFields count (extractFields S.locale S.emptylast (S.ifs.getD defaultIfs) w).1 =
      (extractFields S.locale S.emptylast (S.ifs.getD defaultIfs) w).1 := by
  rw [← C14_fieldsplit_spec, fieldsplit1, List.length_map] at h
  rw [padFields, Nat.sub_eq_zero_of_le h]; simp

theorem pad_length (S : Setting) (w : CWord) (count : Nat) :
    (padFields count (extractFields S.locale S.emptylast (S.ifs.getD defaultIfs) w).1).length =
      max count (fields S.locale.space S.emptylast (S.ifs.getD defaultIfs) w).length := by
  rw [← C14_fieldsplit_spec, fieldsplit1, List.length_map, padFields]
  simp
  omega

/-- The value of the last variable. -/
theorem last_scalar (S : Setting) (w : CWord) (k : Nat) :
    ∃ v, LastScalar S.locale.space S.emptylast (S.ifs.getD defaultIfs) w k v ∧
      lastValue false (k + 1) w
        (padFields (k + 1) (extractFields S.locale S.emptylast (S.ifs.getD defaultIfs) w).1)
        (extractFields S.locale S.emptylast (S.ifs.getD defaultIfs) w).2 = some (.scalar v) := by
  obtain ⟨a, b, h1, h2, h3⟩ := pad_get S w (k + 1) k (by omega)
  simp only [lastValue, Bool.false_eq_true, if_false, Nat.add_sub_cancel, h1, pad_length]
  have hp := pad_long S w (k + 1)
  have hrem := remainder S.locale S.emptylast (S.ifs.getD defaultIfs) w k a b
  unfold LastScalar
  generalize fields S.locale.space S.emptylast (S.ifs.getD defaultIfs) w = fs at *
  by_cases hmore : k + 1 < fs.length
  · have hm : k + 1 < max (k + 1) fs.length := by omega
    simp only [hm, if_true]
    rw [hp (by omega)] at h1
    obtain ⟨g1, g2⟩ := hrem h1 hmore
    rw [if_pos g1]
    refine ⟨_, ?_, rfl⟩
    split
    · rename_i heq
      have := congrArg List.length heq
      simp at this; omega
    · rename_i heq
      have := congrArg List.length heq
      simp at this; omega
    · exact ⟨_, g2, rfl⟩
  · have hm : ¬ k + 1 < max (k + 1) fs.length := by omega
    simp only [hm, if_false, h2, if_true]
    refine ⟨_, ?_, rfl⟩
    rw [h3]
    split
    · rename_i heq
      rw [List.drop_eq_nil_iff] at heq
      rw [List.getElem?_eq_none heq]; rfl
    · rename_i f heq
      have : fs[k]? = some f := by
        have := congrArg (·[0]?) heq
        simpa using this
      rw [this]; rfl
    · rename_i h0 h1'
      exfalso
      by_cases hk : fs.length ≤ k
      · exact h0 (List.drop_eq_nil_iff.2 hk)
      · have hl : (fs.drop k).length = 1 := by simp; omega
        obtain ⟨f, hf⟩ := List.length_eq_one_iff.1 hl
        exact h1' f hf

theorem last_array (S : Setting) (w : CWord) (k : Nat) :
    LastArray S.locale.space S.emptylast (S.ifs.getD defaultIfs) w k
      (arrayValues (((padFields (k + 1)
        (extractFields S.locale S.emptylast (S.ifs.getD defaultIfs) w).1).drop k).map
          fun s => text (slice w s))) := by
  have hfs : fields S.locale.space S.emptylast (S.ifs.getD defaultIfs) w =
      (extractFields S.locale S.emptylast (S.ifs.getD defaultIfs) w).1.map (slice w) := by
    rw [← C14_fieldsplit_spec, fieldsplit1]
  unfold LastArray
  rw [hfs]
  generalize (extractFields S.locale S.emptylast (S.ifs.getD defaultIfs) w).1 = list
  by_cases h : k < list.length
  · have hp : padFields (k + 1) list = list := by
      rw [padFields, Nat.sub_eq_zero_of_le (by omega)]; simp
    rw [hp, ← List.map_drop]
    have hm : (list.drop k).map (fun s => text (slice w s)) = ((list.drop k).map (slice w)).map text := by
      rw [List.map_map]; rfl
    rw [hm]
    generalize (list.drop k).map (slice w) = fs
    split
    · rfl
    · rename_i h0
      unfold arrayValues
      split
      · rename_i heq
        exfalso
        apply h0
        rcases fs with _ | ⟨f, _ | ⟨g, l⟩⟩
        · simp at heq
        · simpa [text] using heq
        · simp at heq
      · rfl
  · have hd : (padFields (k + 1) list).drop k = [(0, 0)] := by
      unfold padFields
      rw [List.drop_append]
      rw [List.drop_eq_nil_iff.2 (by omega), List.nil_append, List.drop_replicate]
      have : k + 1 - list.length - (k - list.length) = 1 := by omega
      rw [this]; rfl
    have hd' : (list.map (slice w)).drop k = [] := List.drop_eq_nil_iff.2 (by simp; omega)
    rw [hd, hd']
    simp [arrayValues, slice]

/-- **C66.** `read` takes one line from the input, as `Logical` or, with the `-r` option, `Raw`
says, and leaves the rest; the variables get the fields of the line as `Assigned` says.  Nothing
else can happen: the code never reads outside of the list of fields or of the line. -/
theorem C66_read (S : Setting) (array raw : Bool) (names : List (List Char)) (t : List Char)
    (hne : names ≠ []) (heq : ∀ n ∈ names, '=' ∉ n) (w : CWord) (e : Bool) (r : List Char)
    (hline : if raw then Raw t w e r else Logical t w e r) :
    ∃ assigns, readBuiltin S array raw names t = some (.done ⟨assigns, !e, r⟩) ∧
      Assigned S.locale.space S.emptylast (S.ifs.getD [' ', '\t', '\n']) w array names assigns := by
  have hin : readWithPrompt raw t = (w ++ ending e, r) := by
    cases raw with
    | true => exact rwp_raw (by simpa using hline)
    | false => exact rwp_logical (by simpa using hline)
  have hnl : ∀ c ∈ w, c.1 ≠ '\n' := by
    cases raw with
    | true => exact raw_no_newline (by simpa using hline)
    | false => exact logical_no_newline (by simpa using hline)
  obtain ⟨init, name, rfl⟩ : ∃ init name, names = init ++ [name] :=
    ⟨names.dropLast, names.getLast hne, (List.dropLast_concat_getLast hne).symm⟩
  generalize hk : init.length = k
  have hinit : (List.range k).mapM (fun i =>
      (padFields (k + 1) (extractFields S.locale S.emptylast (S.ifs.getD defaultIfs) w).1)[i]?.map
        fun s => Value.scalar (text (slice w s))) =
      some (((List.range k).map fun i =>
        ((fields S.locale.space S.emptylast (S.ifs.getD defaultIfs) w)[i]?.map text).getD []).map
          Value.scalar) := by
    rw [List.map_map]
    apply mapM_some
    intro i hi
    obtain ⟨a, b, h1, _, h3⟩ := pad_get S w (k + 1) i (by simp at hi; omega)
    rw [h1]
    simp only [Option.map_some, h3, Function.comp_apply]
  have hany : (init ++ [name]).any (·.contains '=') = false := by
    rw [List.any_eq_false]
    intro n hn
    simpa using heq n hn
  have hrun : ∀ last, lastValue array (k + 1) w
        (padFields (k + 1) (extractFields S.locale S.emptylast (S.ifs.getD defaultIfs) w).1)
        (extractFields S.locale S.emptylast (S.ifs.getD defaultIfs) w).2 = some last →
      readBuiltin S array raw (init ++ [name]) t =
        some (.done ⟨(init.zip (((List.range k).map fun i =>
        ((fields S.locale.space S.emptylast (S.ifs.getD defaultIfs) w)[i]?.map text).getD []).map
          Value.scalar)) ++ [(name, last)], !e, r⟩) := by
    intro last hlast
    rw [readBuiltin, if_neg hne, if_neg (by rw [hany]; exact Bool.false_ne_true)]
    simp only [run, hin, chomp_ending hnl, List.length_append, List.length_singleton, hk]
    simp only [values, Nat.add_sub_cancel]
    rw [hinit, hlast]
    simp only [Option.map_some]
    rw [List.zip_append (by simp [hk])]
    rfl
  cases array with
  | false =>
    obtain ⟨v, h1, h2⟩ := last_scalar S w k
    refine ⟨_, hrun _ h2, ?_⟩
    refine .scalar init _ name v (by simp [hk]) ?_ (by rw [hk]; exact h1)
    intro i hi
    simp [defaultIfs]
  | true =>
    refine ⟨_, hrun _ (by rfl), ?_⟩
    refine .array init _ name _ (by simp [hk]) ?_ (by rw [hk]; exact last_array S w k)
    intro i hi
    simp [defaultIfs]

/-- **C66.** Every input begins with a line, so the theorem above always applies. -/
theorem C66_line_exists (raw : Bool) (t : List Char) :
    ∃ w e r, if raw then Raw t w e r else Logical t w e r := by
  cases raw with
  | true => simpa using raw_total t
  | false => simpa using logical_total t

/-- **C66.** What the command does with the variables and with its exit status, whatever
`set_variable` and `set_array` do: the values are assigned from left to right; the exit status is
zero if and only if the line ends with a newline and all variables could be assigned. -/
theorem C66_command {σ : Type} (set : σ → List Char → Value → σ × Bool) (S : Setting)
    (array raw : Bool) (names : List (List Char)) (s : σ) (t : List Char)
    (hne : names ≠ []) (heq : ∀ n ∈ names, '=' ∉ n) (w : CWord) (e : Bool) (r : List Char)
    (hline : if raw then Raw t w e r else Logical t w e r) :
    ∃ assigns status,
      Assigned S.locale.space S.emptylast (S.ifs.getD [' ', '\t', '\n']) w array names assigns ∧
      command set S array raw names s t =
        some (assigns.foldl (fun s a => (set s a.1 a.2).1) s, status, r) ∧
      (status = true ↔ e = true ∧ ∀ i (h : i < assigns.length),
        (set ((assigns.take i).foldl (fun s a => (set s a.1 a.2).1) s)
          assigns[i].1 assigns[i].2).2 = true) := by
  obtain ⟨assigns, h1, h2⟩ := C66_read S array raw names t hne heq w e r hline
  refine ⟨assigns, e && (assignAll set assigns s).2, h2, ?_, ?_⟩
  · simp only [command, h1, Bool.not_not]
    congr 2
    clear h1 h2
    induction assigns generalizing s with
    | nil => rfl
    | cons a l ih => simp only [assignAll, List.foldl_cons]; exact ih _
  · rw [Bool.and_eq_true]
    refine and_congr_right fun _ => ?_
    clear h1 h2
    induction assigns generalizing s with
    | nil => simp [assignAll]
    | cons a l ih =>
      simp only [assignAll, Bool.and_eq_true, ih]
      constructor
      · rintro ⟨h1, h2⟩ i hi
        cases i with
        | zero => simpa using h1
        | succ i => simpa using h2 i (by simpa using hi)
      · intro h
        exact ⟨h 0 (by simp), fun i hi => h (i + 1) (by simpa using hi)⟩

/-- **C66.** A name that contains `=` is an error, and so is the absence of names: nothing is read
and no variable is assigned. -/
theorem C66_bad_operands {σ : Type} (set : σ → List Char → Value → σ × Bool) (S : Setting)
    (array raw : Bool) (names : List (List Char)) (s : σ) (t : List Char)
    (h : names = [] ∨ ∃ n ∈ names, '=' ∈ n) :
    command set S array raw names s t = some (s, false, t) := by
  unfold command readBuiltin
  by_cases h1 : names = []
  · rw [if_pos h1]
  · rcases h with h | ⟨n, hn, h⟩
    · exact absurd h h1
    · rw [if_neg h1, if_pos (List.any_eq_true.2 ⟨n, hn, by simpa using h⟩)]

end Yash.Read
