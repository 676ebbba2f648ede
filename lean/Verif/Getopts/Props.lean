import Verif.Getopts.Run
/-!
# C29: getopts visits every option once
-/
set_option autoImplicit false

namespace Yash.Getopts

open Spec
open Yash.Variable (Name Word Shell)
open Yash.Variable.Spec (varAt Visible Sane Run Reachable)

/-! ## Every argument list has exactly one meaning -/

theorem known_or_unknown (opts : Options) (c : Char) : Unknown opts c ∨ ∃ b, Known opts c b := by
  induction opts with
  | nil => exact Or.inl fun b h => (by cases h)
  | cons o opts ih =>
    obtain ⟨d, b⟩ := o
    by_cases hd : d = c
    · subst hd
      exact Or.inr ⟨b, [], opts, rfl, fun b h => (by cases h)⟩
    · rcases ih with h | ⟨b', l, r, h1, h2⟩
      · left
        intro b' hm
        rw [List.mem_cons] at hm
        rcases hm with hm | hm
        · cases hm; exact hd rfl
        · exact h b' hm
      · refine Or.inr ⟨b', (d, b) :: l, r, by rw [h1]; rfl, fun b'' hm => ?_⟩
        rw [List.mem_cons] at hm
        rcases hm with hm | hm
        · cases hm; exact hd rfl
        · exact h2 b'' hm

theorem cluster_total (opts : Options) (rest : List Word) (cs : List Char) :
    ∃ evs j, Cluster opts rest cs evs j := by
  induction cs with
  | nil => exact ⟨_, _, .nil⟩
  | cons c cs ih =>
    obtain ⟨evs, j, h⟩ := ih
    rcases known_or_unknown opts c with hu | ⟨b, hb⟩
    · exact ⟨_, _, .invalid c cs evs j hu h⟩
    · cases b with
      | false => exact ⟨_, _, .flag c cs evs j hb h⟩
      | true =>
        cases cs with
        | cons d cs => exact ⟨_, _, .attached c (d :: cs) hb (by simp)⟩
        | nil =>
          cases rest with
          | nil => exact ⟨_, _, .missing c hb rfl⟩
          | cons w ws => exact ⟨_, _, .separate c w ws hb rfl⟩

/-- Every argument list has a meaning, so the iteration ends: the list of events is finite. -/
theorem C29_total (opts : Options) (args : List Word) : ∃ evs k, Parse opts args evs k := by
  generalize hn : args.length = n
  induction n using Nat.strongRecOn generalizing args with
  | ind n ih =>
    cases args with
    | nil => exact ⟨_, _, .nil⟩
    | cons w ws =>
      cases w with
      | nil => exact ⟨_, _, .operand _ _ (Or.inl (by simp))⟩
      | cons a w =>
        by_cases ha : a = '-'
        · subst ha
          cases w with
          | nil => exact ⟨_, _, .operand _ _ (Or.inr rfl)⟩
          | cons c cs =>
            by_cases hne : c :: cs = ['-']
            · cases hne
              exact ⟨_, _, .separator ws⟩
            · obtain ⟨evs, j, hc⟩ := cluster_total opts ws (c :: cs)
              obtain ⟨evs', k, hp⟩ := ih (ws.drop j).length
                (by rw [← hn, List.length_drop, List.length_cons]; omega) (ws.drop j) rfl
              exact ⟨_, _, .cluster c cs ws evs evs' j k hne hc hp⟩
        · exact ⟨_, _, .operand _ _ (Or.inl (by simpa using ha))⟩

theorem cluster_unique (opts : Options) (rest : List Word) (cs : List Char) :
    ∀ evs evs' j j', Cluster opts rest cs evs j → Cluster opts rest cs evs' j' → evs = evs' ∧ j = j' := by
  have unk : ∀ c b, Unknown opts c → Known opts c b → False :=
    fun c b h1 h2 => h1 b (known_mem _ _ _ h2)
  have ft : ∀ c, Known opts c false → Known opts c true → False :=
    fun c h1 h2 => by have := known_unique _ _ _ _ h1 h2; cases this
  induction cs with
  | nil => intro evs evs' j j' h h'; cases h; cases h'; exact ⟨rfl, rfl⟩
  | cons c cs ih =>
    intro evs evs' j j' h h'
    cases h with
    | invalid _ _ e1 _ hu h =>
      cases h' with
      | invalid _ _ e2 _ hu' h' => obtain ⟨rfl, rfl⟩ := ih _ _ _ _ h h'; exact ⟨rfl, rfl⟩
      | flag _ _ _ _ hk => exact absurd (unk _ _ hu hk) id
      | attached _ _ hk => exact absurd (unk _ _ hu hk) id
      | separate _ _ _ hk => exact absurd (unk _ _ hu hk) id
      | missing _ hk => exact absurd (unk _ _ hu hk) id
    | flag _ _ e1 _ hk h =>
      cases h' with
      | invalid _ _ e2 _ hu' h' => exact absurd (unk _ _ hu' hk) id
      | flag _ _ _ _ hk' h' => obtain ⟨rfl, rfl⟩ := ih _ _ _ _ h h'; exact ⟨rfl, rfl⟩
      | attached _ _ hk' => exact absurd (ft _ hk hk') id
      | separate _ _ _ hk' => exact absurd (ft _ hk hk') id
      | missing _ hk' => exact absurd (ft _ hk hk') id
    | attached _ _ hk hne =>
      cases h' with
      | invalid _ _ e2 _ hu' h' => exact absurd (unk _ _ hu' hk) id
      | flag _ _ _ _ hk' h' => exact absurd (ft _ hk' hk) id
      | attached _ _ _ _ => exact ⟨rfl, rfl⟩
      | separate _ _ _ _ _ => exact absurd rfl hne
      | missing _ _ _ => exact absurd rfl hne
    | separate _ w ws hk hr =>
      cases h' with
      | invalid _ _ e2 _ hu' h' => exact absurd (unk _ _ hu' hk) id
      | flag _ _ _ _ hk' h' => exact absurd (ft _ hk' hk) id
      | attached _ _ _ hne => exact absurd rfl hne
      | separate _ w' ws' _ hr' => rw [hr] at hr'; cases hr'; exact ⟨rfl, rfl⟩
      | missing _ _ hr' => rw [hr] at hr'; cases hr'
    | missing _ hk hr =>
      cases h' with
      | invalid _ _ e2 _ hu' h' => exact absurd (unk _ _ hu' hk) id
      | flag _ _ _ _ hk' h' => exact absurd (ft _ hk' hk) id
      | attached _ _ _ hne => exact absurd rfl hne
      | separate _ w' ws' _ hr' => rw [hr] at hr'; cases hr'
      | missing _ _ hr' => exact ⟨rfl, rfl⟩

theorem C29_unique (opts : Options) (args : List Word) (evs evs' : List Event) (k k' : Nat)
    (h : Parse opts args evs k) (h' : Parse opts args evs' k') : evs = evs' ∧ k = k' := by
  induction h generalizing evs' k' with
  | nil => cases h'; exact ⟨rfl, rfl⟩
  | operand w ws hw =>
    cases h' with
    | operand => exact ⟨rfl, rfl⟩
    | separator => rcases hw with hw | hw <;> simp at hw
    | cluster c cs _ _ _ _ _ hne => rcases hw with hw | hw <;> simp at hw
  | separator ws =>
    cases h' with
    | operand _ _ hw => rcases hw with hw | hw <;> simp at hw
    | separator => exact ⟨rfl, rfl⟩
    | cluster c cs _ _ _ _ _ hne => exact absurd rfl hne
  | cluster c cs ws evs1 evs2 j k hne hc _ ih =>
    cases h' with
    | operand _ _ hw => rcases hw with hw | hw <;> simp at hw
    | separator => exact absurd rfl hne
    | cluster _ _ _ evs1' evs2' j' k' _ hc' hp' =>
      obtain ⟨rfl, rfl⟩ := cluster_unique _ _ _ _ _ _ _ hc hc'
      obtain ⟨rfl, rfl⟩ := ih _ _ hp'
      exact ⟨rfl, rfl⟩

/-! ## Option strings -/

/-- The option strings accepted are exactly those that list option characters, each with or without a
colon after it, after an optional first colon; in the POSIXly-correct mode the characters must be
alphanumeric and not a question mark. -/
theorem C29_option_string (posix : Bool) (alnum : Char → Bool) (s : List Char) :
    checkOptions posix alnum s = true ↔
      ∃ silent opts, Written silent opts s ∧
        ∀ o ∈ opts, o.1 ≠ ':' ∧ (posix = true → o.1 ≠ '?' ∧ alnum o.1 = true) := by
  have colon : ∀ s : List Char, checkLoop posix alnum (':' :: s) = false := by
    intro s
    cases s with
    | nil => rfl
    | cons d s => by_cases hd : d = ':' <;> simp [checkLoop, hd]
  have one : ∀ (c : Char) (s : List Char), c ≠ ':' → (posix = true → c ≠ '?' ∧ alnum c = true) →
      s.head? ≠ some ':' → checkLoop posix alnum (c :: s) = checkLoop posix alnum s := by
    intro c s hc hp hs
    have hq : ¬ (posix && (c == '?' || !alnum c)) = true := by
      intro h
      simp only [Bool.and_eq_true, Bool.or_eq_true, beq_iff_eq, Bool.not_eq_true'] at h
      obtain ⟨h1, h2 | h2⟩ := h
      · exact (hp h1).1 h2
      · rw [(hp h1).2] at h2; cases h2
    cases s with
    | nil =>
      cases posix with
      | false => simp [checkLoop, hc]
      | true => simpa [checkLoop, hc] using hp rfl
    | cons d s =>
      rw [checkLoop, if_neg hc, if_neg hq]
      intro s' h
      cases h
      exact absurd rfl hs
  have two : ∀ (c : Char) (s : List Char), c ≠ ':' → (posix = true → c ≠ '?' ∧ alnum c = true) →
      checkLoop posix alnum (c :: ':' :: s) = checkLoop posix alnum s := by
    intro c s hc hp
    have hq : ¬ (posix && (c == '?' || !alnum c)) = true := by
      intro h
      simp only [Bool.and_eq_true, Bool.or_eq_true, beq_iff_eq, Bool.not_eq_true'] at h
      obtain ⟨h1, h2 | h2⟩ := h
      · exact (hp h1).1 h2
      · rw [(hp h1).2] at h2; cases h2
    rw [checkLoop, if_neg hc, if_neg hq]
  have loop : ∀ n (s : List Char), s.length = n → (checkLoop posix alnum s = true ↔
      ∃ opts : Options, s = (opts.flatMap fun o => if o.2 then [o.1, ':'] else [o.1]) ∧
        ∀ o ∈ opts, o.1 ≠ ':' ∧ (posix = true → o.1 ≠ '?' ∧ alnum o.1 = true)) := by
    intro n
    induction n using Nat.strongRecOn with
    | ind n ih =>
      intro s hn
      constructor
      · intro h
        cases s with
        | nil => exact ⟨[], rfl, fun _ h => (by cases h)⟩
        | cons c s =>
          by_cases hc : c = ':'
          · subst hc; rw [colon] at h; cases h
          · have hp : posix = true → c ≠ '?' ∧ alnum c = true := by
              intro hp
              apply Decidable.byContradiction
              intro hcon
              have hq : (posix && (c == '?' || !alnum c)) = true := by
                rw [hp]
                by_cases h1 : c = '?'
                · simp [h1]
                · cases h2 : alnum c with
                  | false => simp
                  | true => exact absurd ⟨h1, h2⟩ hcon
              cases s with
              | nil => rw [checkLoop, if_neg hc, if_pos hq] at h <;> first | cases h | (intro s' h; cases h)
              | cons d s =>
                by_cases hd : d = ':'
                · subst hd
                  rw [checkLoop, if_neg hc, if_pos hq] at h
                  cases h
                · rw [checkLoop, if_neg hc, if_pos hq] at h
                  · cases h
                  · intro s' h; cases h; exact hd rfl
            cases s with
            | nil => exact ⟨[(c, false)], rfl, by simpa using ⟨hc, hp⟩⟩
            | cons d s =>
              by_cases hd : d = ':'
              · subst hd
                rw [two c s hc hp] at h
                obtain ⟨opts, h1, h2⟩ := (ih s.length (by rw [← hn]; simp only [List.length_cons]; omega)
                  s rfl).mp h
                refine ⟨(c, true) :: opts, by rw [h1]; rfl, fun o ho => ?_⟩
                rw [List.mem_cons] at ho
                rcases ho with rfl | ho
                · exact ⟨hc, hp⟩
                · exact h2 o ho
              · rw [one c (d :: s) hc hp (by simpa using hd)] at h
                obtain ⟨opts, h1, h2⟩ := (ih (d :: s).length (by rw [← hn]; simp only [List.length_cons]; omega)
                  (d :: s) rfl).mp h
                refine ⟨(c, false) :: opts, by rw [h1]; rfl, fun o ho => ?_⟩
                rw [List.mem_cons] at ho
                rcases ho with rfl | ho
                · exact ⟨hc, hp⟩
                · exact h2 o ho
      · rintro ⟨opts, h1, h2⟩
        cases opts with
        | nil => subst h1; rfl
        | cons o opts =>
          obtain ⟨c, b⟩ := o
          obtain ⟨hc, hp⟩ := h2 (c, b) (by simp)
          have hrest : checkLoop posix alnum
              (opts.flatMap fun o => if o.2 then [o.1, ':'] else [o.1]) = true := by
            refine (ih _ ?_ _ rfl).mpr ⟨opts, rfl, fun o ho => h2 o (by simp [ho])⟩
            rw [← hn, h1, List.flatMap_cons, List.length_append]
            cases b <;> simp <;> omega
          rw [h1, List.flatMap_cons]
          cases b with
          | true =>
            simp only [if_true, List.cons_append, List.nil_append]
            rw [two c _ hc hp]
            exact hrest
          | false =>
            simp only [Bool.false_eq_true, if_false, List.cons_append, List.nil_append]
            rw [one c _ hc hp]
            · exact hrest
            · cases opts with
              | nil => simp
              | cons o' opts' =>
                have h3 := (h2 o' (by simp)).1
                rw [List.flatMap_cons]
                split <;> simpa using h3
  unfold checkOptions
  constructor
  · intro h
    split at h
    · obtain ⟨opts, h1, h2⟩ := (loop _ _ rfl).mp h
      exact ⟨true, opts, by rw [Written, ← h1]; rfl, h2⟩
    · obtain ⟨opts, h1, h2⟩ := (loop _ _ rfl).mp h
      exact ⟨false, opts, by rw [Written, ← h1]; rfl, h2⟩
  · rintro ⟨silent, opts, h1, h2⟩
    cases silent with
    | true =>
      rw [Written] at h1
      subst h1
      exact (loop _ _ rfl).mpr ⟨opts, rfl, h2⟩
    | false =>
      simp only [Written, Bool.false_eq_true, if_false, List.nil_append] at h1
      have h3 := (loop _ s rfl).mpr ⟨opts, h1, h2⟩
      split
      · rw [colon] at h3; cases h3
      · exact h3

/-! ## Calls -/

/-- The arguments `getopts` is called with and the variables it works on. -/
structure Setting (posix : Bool) (alnum isSpace : Char → Bool) (silent : Bool) (opts : Options)
    (options : List Char) (name : Name) (args : List Word) : Prop where
  space : ∀ c, '0' ≤ c → c ≤ '9' → isSpace c = false
  written : Written silent opts options
  valid : ∀ o ∈ opts, o.1 ≠ ':' ∧ (posix = true → o.1 ≠ '?' ∧ alnum o.1 = true)
  name_ok : '=' ∉ name ∧ name ≠ "OPTIND".toList ∧ name ≠ "OPTARG".toList
  size : args.length + 2 < 18446744073709551616 ∧ ∀ a ∈ args, a.length < 18446744073709551616

/-- A state in which `getopts` can do its work. -/
structure Ready (name : Name) (sh : Shell) : Prop where
  sane : Sane sh
  name : Ordinary sh name
  optind : Ordinary sh "OPTIND".toList
  optarg : Ordinary sh "OPTARG".toList

section
variable {posix : Bool} {alnum isSpace : Char → Bool} {silent : Bool} {opts : Options}
  {options : List Char} {name : Name} {args : List Word}

theorem silent_head (st : Setting posix alnum isSpace silent opts options name args) :
    (options.head? == some ':') = silent := by
  have h := st.written
  cases silent with
  | true => rw [Written] at h; subst h; rfl
  | false =>
    simp only [Written, Bool.false_eq_true, if_false, List.nil_append] at h
    cases hh : options.head? with
    | none => rfl
    | some c =>
      have : c ≠ ':' := by
        cases opts with
        | nil => subst h; cases hh
        | cons o' opts' =>
          have h3 := (st.valid o' (by simp)).1
          rw [h, List.flatMap_cons] at hh
          split at hh
          · simp only [List.cons_append, List.head?_cons, Option.some.injEq] at hh
            rw [← hh]; exact h3
          · simp only [List.cons_append, List.head?_cons, Option.some.injEq] at hh
            rw [← hh]; exact h3
      simpa using this

theorem getopts_call (st : Setting posix alnum isSpace silent opts options name args) (sh : Shell)
    (i s : Nat) (hi : i + 1 < ulongs) (hs0 : 1 ≤ s) (hs : s < ulongs)
    (hv : Value sh optindName (optindText i s)) :
    getopts posix alnum isSpace sh options name args =
      match findOption options args i s with
      | .done k => (actAll sh (actions silent name (.done k))).map (·, false)
      | f => actTry sh (actions silent name f) := by
  unfold getopts
  rw [if_neg (by simpa using st.name_ok.1), if_neg, hv.getScalar]
  · simp only []
    rw [parse_text isSpace st.space i s hi hs, silent_head st]
    simp only []
    rw [show (if 1 < s then s else 1) = s from by split <;> omega]
    cases findOption options args i s <;> rfl
  · rw [(C29_option_string posix alnum options).mpr ⟨silent, opts, st.written, st.valid⟩]
    simp

/-- A call at a position with events left. -/
theorem call_next (st : Setting posix alnum isSpace silent opts options name args) (sh : Shell)
    (hr : Ready name sh) (i s : Nat) (hi : i + 1 < ulongs) (hs0 : 1 ≤ s) (hs : s < ulongs)
    (hv : Value sh optindName (optindText i s)) (e : Event) (i' s' : Nat)
    (hf : Reports (findOption options args i s) e i' s') :
    ∃ sh', getopts posix alnum isSpace sh options name args = some (sh', true) ∧ Ready name sh' ∧
      Shows silent name sh' e ∧ Value sh' optindName (optindText i' s') := by
  rw [getopts_call st sh i s hi hs0 hs hv]
  have key := fun w t arg as => try_three sh hr.sane name st.name_ok.2.1 st.name_ok.2.2 hr.name hr.optind
    hr.optarg w t arg as
  generalize findOption options args i s = f at hf
  cases hf with
  | flag c i' s' =>
    obtain ⟨sh', h1, _, h2, h3, h4, h5, h6, h7, h8⟩ := key [c] (optindText i' s') none _
      (Or.inr (Or.inl rfl))
    exact ⟨sh', h1, ⟨h2, h3, h4, h5⟩, ⟨h6, h8⟩, h7⟩
  | withArg c w i' s' =>
    obtain ⟨sh', h1, _, h2, h3, h4, h5, h6, h7, h8⟩ := key [c] (optindText i' s') (some w) _
      (Or.inr (Or.inl rfl))
    exact ⟨sh', h1, ⟨h2, h3, h4, h5⟩, ⟨h6, h8⟩, h7⟩
  | invalid c i' s' =>
    cases silent with
    | true =>
      obtain ⟨sh', h1, _, h2, h3, h4, h5, h6, h7, h8⟩ := key ['?'] (optindText i' s') (some [c]) _
        (Or.inl rfl)
      exact ⟨sh', h1, ⟨h2, h3, h4, h5⟩, ⟨h6, h8⟩, h7⟩
    | false =>
      obtain ⟨sh', h1, _, h2, h3, h4, h5, h6, h7, h8⟩ := key ['?'] (optindText i' s') none _ (Or.inl rfl)
      exact ⟨sh', h1, ⟨h2, h3, h4, h5⟩, ⟨h6, h8⟩, h7⟩
  | missing c i' s' =>
    cases silent with
    | true =>
      obtain ⟨sh', h1, _, h2, h3, h4, h5, h6, h7, h8⟩ := key [':'] (optindText i' s') (some [c]) _
        (Or.inl rfl)
      exact ⟨sh', h1, ⟨h2, h3, h4, h5⟩, ⟨h6, h8⟩, h7⟩
    | false =>
      obtain ⟨sh', h1, _, h2, h3, h4, h5, h6, h7, h8⟩ := key ['?'] (optindText i' s') none _ (Or.inl rfl)
      exact ⟨sh', h1, ⟨h2, h3, h4, h5⟩, ⟨h6, h8⟩, h7⟩

/-- The last call. -/
theorem call_done (st : Setting posix alnum isSpace silent opts options name args) (sh : Shell)
    (hr : Ready name sh) (i s : Nat) (hi : i + 1 < ulongs) (hs0 : 1 ≤ s) (hs : s < ulongs)
    (hv : Value sh optindName (optindText i s)) (k : Nat)
    (hf : findOption options args i s = .done k) :
    ∃ sh', getopts posix alnum isSpace sh options name args = some (sh', false) ∧ Ready name sh' ∧
      Value sh' name ['?'] ∧ Absent sh' optargName ∧ Value sh' optindName (optindText k 0) := by
  rw [getopts_call st sh i s hi hs0 hs hv, hf]
  obtain ⟨sh', _, h1, h2, h3, h4, h5, h6, h7, h8⟩ := try_three sh hr.sane name st.name_ok.2.1
    st.name_ok.2.2 hr.name hr.optind hr.optarg ['?'] (optindText k 0) none _ (Or.inr (Or.inr rfl))
  exact ⟨sh', by
    show Option.map (fun x => (x, false)) (actAll sh [.set optindName (optindText k 0),
      .set name ['?'], argAct none]) = _
    rw [h1]; rfl, ⟨h2, h3, h4, h5⟩, h6, h8, h7⟩

theorem calls_from (st : Setting posix alnum isSpace silent opts options name args)
    (evs : List Event) : ∀ (sh : Shell) (i s k : Nat), Ready name sh → i ≤ args.length + 1 → 1 ≤ s →
      s < ulongs → Value sh optindName (optindText i s) → Rem opts args i s evs k →
      ∃ sh1 sh2 k', Calls (fun sh => getopts posix alnum isSpace sh options name args)
          (Shows silent name) sh evs sh1 ∧
        getopts posix alnum isSpace sh1 options name args = some (sh2, false) ∧
        Ready name sh2 ∧ Value sh2 name ['?'] ∧ Absent sh2 optargName ∧
        Value sh2 optindName (optindText k' 0) ∧
        (((∀ c, .missing c ∉ evs) ∧ k' = k) ∨ ((∃ c, .missing c ∈ evs) ∧ k' = k + 1 ∧
          k = args.length)) := by
  have hv : ∀ o ∈ opts, o.1 ≠ ':' := fun o ho => (st.valid o ho).1
  have hsize : args.length + 2 < ulongs := st.size.1
  induction evs with
  | nil =>
    intro sh i s k hr hi hs0 hs hval hrem
    rcases find_step silent opts options hv st.written args i s [] k hrem with ⟨_, hf⟩ | ⟨e, evs', _, _, _, hn⟩
    · obtain ⟨sh', h1, h2, h3, h4, h5⟩ := call_done st sh hr i s (by omega) hs0 hs hval k hf
      exact ⟨sh, sh', k, .nil sh, h1, h2, h3, h4, h5, Or.inl ⟨fun _ h => (by cases h), rfl⟩⟩
    · exact absurd hn.split (by simp)
  | cons e evs ih =>
    intro sh i s k hr hi hs0 hs hval hrem
    rcases find_step silent opts options hv st.written args i s (e :: evs) k hrem with
      ⟨h, _⟩ | ⟨e', evs', i', s', k', hn⟩
    · cases h
    · have := hn.split
      simp only [List.cons.injEq] at this
      obtain ⟨rfl, rfl⟩ := this
      obtain ⟨sh', h1, h2, h3, h4⟩ := call_next st sh hr i s (by omega) hs0 hs hval e i' s' hn.reports
      have hs' : 1 ≤ s' ∧ s' < ulongs := by
        rcases hn.sub with h | ⟨a, ha, h⟩
        · rw [h]; exact ⟨by omega, by decide⟩
        · have := st.size.2 a ha
          have hu : ulongs = 18446744073709551616 := rfl
          refine ⟨?_, by omega⟩
          rcases hn.rem with ⟨h, _⟩ | ⟨h, _⟩ <;> omega
      obtain ⟨sh1, sh2, K, c1, c2, c3, c4, c5, c6, c7⟩ := ih sh' i' s' k' h2 hn.index hs'.1 hs'.2 h4 hn.rem
      refine ⟨sh1, sh2, K, .cons _ _ _ _ _ h1 h3 c1, c2, c3, c4, c5, c6, ?_⟩
      rcases hn.count with ⟨hm, rfl⟩ | ⟨⟨c, rfl⟩, rfl, hk, hl⟩
      · rcases c7 with ⟨h, h'⟩ | ⟨⟨c, h⟩, h'⟩
        · refine Or.inl ⟨fun c hc => ?_, h'⟩
          rw [List.mem_cons] at hc
          rcases hc with hc | hc
          · exact hm c hc.symm
          · exact h c hc
        · exact Or.inr ⟨⟨c, List.mem_cons_of_mem _ h⟩, h'⟩
      · rcases c7 with ⟨_, h'⟩ | ⟨⟨c, h⟩, _⟩
        · exact Or.inr ⟨⟨c, by simp⟩, by omega, hl⟩
        · cases h

theorem cluster_bound {rest : List Word} {cs : List Char} {evs : List Event} {j : Nat}
    (h : Cluster opts rest cs evs j) : j ≤ rest.length := by
  induction h with
  | nil => omega
  | invalid _ _ _ _ _ _ ih => exact ih
  | flag _ _ _ _ _ _ ih => exact ih
  | attached => omega
  | separate _ _ _ _ h => rw [h, List.length_cons]; omega
  | missing => omega

theorem parse_bound {args : List Word} {evs : List Event} {k : Nat} (h : Parse opts args evs k) :
    k ≤ args.length := by
  induction h with
  | nil => omega
  | operand => omega
  | separator => rw [List.length_cons]; omega
  | cluster c cs ws _ _ j k _ hc _ ih =>
    have := cluster_bound hc
    rw [List.length_drop] at ih
    rw [List.length_cons]; omega

theorem start_optind (sh : Shell) (hv : Value sh "OPTIND".toList ['1']) :
    Value sh optindName (optindText 0 1) := by
  have : optindText 0 1 = ['1'] := by decide +kernel
  rw [this]; exact hv

theorem optindText_zero (k : Nat) (h : k + 1 < ulongs) : optindText k 0 = Nat.toDigits 10 (k + 1) := by
  rw [optindText, Nat.mod_eq_of_lt h, if_neg (by omega), List.append_nil]

/-- Repeated calls with the same arguments report every option once, in order and with its argument,
and then report the end.  (`C29_total` and `C29_unique`: there is exactly one list of events for every
argument list.) -/
theorem C29_visits (st : Setting posix alnum isSpace silent opts options name args) (sh : Shell)
    (hr : Ready name sh) (hv : Value sh "OPTIND".toList ['1']) (evs : List Event) (k : Nat)
    (hp : Parse opts args evs k) :
    ∃ sh1 sh2, Calls (fun sh => getopts posix alnum isSpace sh options name args)
        (Shows silent name) sh evs sh1 ∧
      getopts posix alnum isSpace sh1 options name args = some (sh2, false) ∧
      Ready name sh2 ∧ Value sh2 name ['?'] ∧ Absent sh2 "OPTARG".toList := by
  obtain ⟨sh1, sh2, K, h1, h2, h3, h4, h5, _⟩ := calls_from st evs sh 0 1 k hr (by omega) (by omega)
    (by decide) (start_optind sh hv) (Or.inl ⟨rfl, k, hp, by omega⟩)
  exact ⟨sh1, sh2, h1, h2, h3, h4, h5⟩

/-- At the end `OPTIND` is the index of the first operand, counted from one.

Missing from the full property: the case that the last option lacks its argument, where the code
counts one too many (`C29_missing_violates`). -/
theorem C29_optind_partial (st : Setting posix alnum isSpace silent opts options name args) (sh : Shell)
    (hr : Ready name sh) (hv : Value sh "OPTIND".toList ['1']) (evs : List Event) (k : Nat)
    (hp : Parse opts args evs k) (hm : ∀ c, .missing c ∉ evs) :
    ∃ sh1 sh2, Calls (fun sh => getopts posix alnum isSpace sh options name args)
        (Shows silent name) sh evs sh1 ∧
      getopts posix alnum isSpace sh1 options name args = some (sh2, false) ∧
      k ≤ args.length ∧ Value sh2 "OPTIND".toList (Nat.toDigits 10 (k + 1)) := by
  obtain ⟨sh1, sh2, K, h1, h2, _, _, _, h6, h7⟩ := calls_from st evs sh 0 1 k hr (by omega) (by omega)
    (by decide) (start_optind sh hv) (Or.inl ⟨rfl, k, hp, by omega⟩)
  have hk : k ≤ args.length := parse_bound hp
  have hsize : args.length + 2 < ulongs := st.size.1
  rcases h7 with ⟨_, rfl⟩ | ⟨⟨c, hc⟩, _⟩
  · rw [optindText_zero _ (by omega)] at h6
    exact ⟨sh1, sh2, h1, h2, hk, h6⟩
  · exact absurd hc (hm c)

/-- The code violates the property: if the last option lacks its argument, there is no operand, but
`OPTIND` ends up as the number of arguments plus two, so that `shift $((OPTIND - 1))` fails. -/
theorem C29_missing_violates (st : Setting posix alnum isSpace silent opts options name args)
    (sh : Shell) (hr : Ready name sh) (hv : Value sh "OPTIND".toList ['1']) (evs : List Event) (k : Nat)
    (hp : Parse opts args evs k) (c : Char) (hm : .missing c ∈ evs) :
    ∃ sh1 sh2, Calls (fun sh => getopts posix alnum isSpace sh options name args)
        (Shows silent name) sh evs sh1 ∧
      getopts posix alnum isSpace sh1 options name args = some (sh2, false) ∧
      k = args.length ∧ Value sh2 "OPTIND".toList (Nat.toDigits 10 (args.length + 2)) := by
  obtain ⟨sh1, sh2, K, h1, h2, _, _, _, h6, h7⟩ := calls_from st evs sh 0 1 k hr (by omega) (by omega)
    (by decide) (start_optind sh hv) (Or.inl ⟨rfl, k, hp, by omega⟩)
  have hsize : args.length + 2 < ulongs := st.size.1
  rcases h7 with ⟨h, _⟩ | ⟨_, rfl, rfl⟩
  · exact absurd hm (h c)
  · rw [optindText_zero _ (by omega)] at h6
    exact ⟨sh1, sh2, h1, h2, rfl, h6⟩

end

/-! ## The hypotheses are met -/

/-- `getopts :ab: o -ab x -- y` in a fresh shell. -/
example : Setting false (fun _ => true) (fun c => c == ' ') true [('a', false), ('b', true)]
    ":ab:".toList "o".toList ["-ab".toList, "x".toList, "--".toList, "y".toList] where
  space := by
    intro c h1 h2
    simp only [beq_eq_false_iff_ne, ne_eq]
    rintro rfl
    exact absurd h1 (by decide)
  written := rfl
  valid := by decide
  name_ok := by decide
  size := by decide

example : Parse [('a', false), ('b', true)] ["-ab".toList, "x".toList, "--".toList, "y".toList]
    [.flag 'a', .withArg 'b' "x".toList] 3 :=
  .cluster 'a' ['b'] _ [.flag 'a', .withArg 'b' "x".toList] [] 1 1 (by decide)
    (.flag 'a' ['b'] _ 1 ⟨[], _, rfl, fun _ h => (by cases h)⟩
      (.separate 'b' "x".toList _ ⟨[('a', false)], [], rfl, fun b h => (by cases b <;> revert h <;> decide)⟩ rfl))
    (.separator _)

example : Parse [('b', true)] ["-b".toList] [.missing 'b'] 1 :=
  .cluster 'b' [] [] [.missing 'b'] [] 0 0 (by decide)
    (.missing 'b' ⟨[], [], rfl, fun _ h => (by cases h)⟩ rfl) .nil

def demo : Shell :=
  Yash.Variable.initEnvironment [("OPTIND".toList, "1".toList), ("x".toList, "1".toList)]

example : Ready "o".toList demo ∧ Value demo "OPTIND".toList ['1'] := by
  have hs : Sane demo :=
    Yash.Variable.C25_sane (fun _ => true) (fun _ _ => True) _ (.start _ (by decide))
  have beyond : ∀ n d, 1 ≤ d → varAt demo d n = none :=
    fun n d hd => Yash.Variable.varAt_beyond demo d n hd
  have ho : ∀ n, (∀ v, varAt demo 0 n = some v → v.readonly = false ∧ v.nodelete = false) →
      Ordinary demo n := by
    intro n h d v hv
    have zero : ∀ d v, varAt demo d n = some v → d = 0 := by
      intro d v hv
      cases d with
      | zero => rfl
      | succ d => rw [beyond n _ (by omega)] at hv; cases hv
    have := zero d v hv
    subst this
    exact ⟨(h v hv).1, (h v hv).2, fun e u hu => zero e u hu⟩
  refine ⟨⟨hs, ho _ ?_, ho _ ?_, ho _ ?_⟩, 0, _, ⟨rfl, fun e he => beyond _ e he⟩, rfl⟩
  · intro v hv; cases hv
  · intro v hv; cases hv; exact ⟨rfl, rfl⟩
  · intro v hv; cases hv

end Yash.Getopts
