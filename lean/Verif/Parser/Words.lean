import Verif.Parser.Basic
/-!
# Words are read back
-/
set_option autoImplicit false

namespace Yash.Parser

open Syntax Spec
open Expand (Locale)

variable {L : Locale}

/-- The end of a word. -/
theorem WordRT.done (delim : Char → Bool) (acc : List Char) (h : Option Char) : WordRT L delim false acc h (stringUnit acc) := by
  intro ml i buf
  refine ⟨[], by simp [printWord_stringUnit], fun _ => rfl, fun h => absurd rfl h, fun r hr => hr.1, ?_⟩
  intro b r hr k hk
  obtain ⟨k, rfl⟩ : ∃ k', k = k' + 1 := ⟨k - 1, by omega⟩
  refine .of fun m => ?_
  simp only [parseWordLoop, List.nil_append]
  rw [hr.1]
  cases r with
  | nil => simp
  | cons d r =>
    have := (hr.2 d (by simp)).1
    simp [this]

/-- One more piece of text in front. -/
theorem WordRT.step {delim : Char → Bool} {indq indq' : Bool} {acc : List Char} {h : Option Char} {w : Word} (x : List Char) (hx : x ≠ [])
    (hw : WordRT L delim indq' (acc ++ x) h w)
    (hnorm : ∀ t, lineCont t = t → lineCont (x ++ t) = x ++ t)
    (hread : ∀ (sp : Special) k b t, lineCont t = t → parseWordLoop sp delim (k + 1) indq acc ⟨b, x ++ t⟩ =
      parseWordLoop sp delim k indq' (acc ++ x) ⟨x.reverse ++ b, t⟩) :
    WordRT L delim indq acc x.head? w := by
  intro ml i buf
  obtain ⟨s, h1, h2, h3, h4, h5⟩ := hw ml i buf
  refine ⟨x ++ s, by rw [h1]; simp, by simp [hx], ?_, ?_, ?_⟩
  · intro _
    cases x with
    | nil => exact absurd rfl hx
    | cons c x => rfl
  · intro r hr
    rw [List.append_assoc]
    exact hnorm _ (h4 r hr)
  · intro b r hr k hk
    obtain ⟨k, rfl⟩ : ∃ k', k = k' + 1 := ⟨k - 1, by omega⟩
    have hxl : 0 < x.length := List.length_pos_iff.2 hx
    simp only [List.length_append] at hk
    refine (h5 (x.reverse ++ b) r hr k (by omega)).mono fun m hm => ?_
    rw [List.append_assoc, hread _ _ _ _ (h4 r hr), hm]
    simp

theorem special_eq (m : Nat) : (parser L (m + 1)).special = special L (parser L m) := rfl

theorem WordResult.step {delim : Char → Bool} {indq indq' : Bool} {acc b0 r0 r1 : List Char} {w : Word} {st : Src} (x : List Char)
    (hx : x ≠ []) (hw : WordResult L delim indq' (acc ++ x) (x.reverse ++ b0) r1 w st) (hh : (lineCont r0).head? = x.head?)
    (hnorm : ∀ t, lineCont t = t → lineCont (x ++ t) = x ++ t)
    (hread : ∀ (sp : Special) k b t, lineCont t = t → parseWordLoop sp delim (k + 1) indq acc ⟨b, x ++ t⟩ =
      parseWordLoop sp delim k indq' (acc ++ x) ⟨x.reverse ++ b, t⟩) : WordResult L delim indq acc b0 r0 w st where
  nt := hw.nt
  follow := hw.follow
  strs := hw.strs
  ne := fun h => hw.ne (by simp [h])
  text := by
    intro t ht
    obtain ⟨t', h1, h2⟩ := hw.text t ht
    exact ⟨x ++ t', by simp [h1], by simp [h2]⟩
  nil := fun h => absurd h (hw.ne (by simp [hx]))
  rt := fun hok => by
    rw [hh]
    exact (hw.rt hok).step x hx hnorm hread

/-- An expansion in front. -/
theorem WordRT.unit {delim : Char → Bool} {indq : Bool} {acc : List Char} {h h' : Option Char} {w : Word} {u : WordUnit}
    (hd : indq = false → delim '$' = false) (hh : h' = some '$') (hu : UnitRT L u)
    (hw : WordRT L delim indq [] h w) : WordRT L delim indq acc h' (stringUnit acc ++ u :: w) := by
  intro ml i buf
  obtain ⟨c, s1, h1, hc, h2⟩ := hu ml i (buf ++ acc)
  obtain ⟨s2, h3, h4, h5, h6, h7⟩ := hw ml i (buf ++ acc ++ '$' :: c :: s1)
  refine ⟨'$' :: c :: s1 ++ s2, ?_, by simp, by simp [hh], fun r _ => lineCont_id (by decide), ?_⟩
  · rw [printWord_append, printWord_stringUnit, printWord, h1, h3]
    simp
  · intro b r hr k hk
    obtain ⟨k, rfl⟩ : ∃ k', k = k' + 1 := ⟨k - 1, by omega⟩
    have hr' : Follow delim w r := by
      have : stringUnit acc ++ u :: w = (stringUnit acc ++ [u]) ++ w := by simp
      rw [this] at hr
      exact hr.of_append
    simp only [List.length_append, List.length_cons] at hk
    refine (h2 b (s2 ++ r) indq).mono2 (h7 (('$' :: c :: s1).reverse ++ b) r hr' k (by omega)) fun m e1 e2 => ?_
    rw [parseWordLoop]
    simp only [List.cons_append]
    rw [lineCont_id (by decide)]
    simp only
    rw [if_neg (by simpa using hd), if_neg (by decide), if_pos (by decide)]
    rw [List.append_assoc]
    simp only [List.cons_append] at e1
    rw [e1]
    simp only
    rw [e2]
    simp

/-- A dollar sign that stands for itself in front. -/
theorem WordRT.dollar {delim : Char → Bool} {indq : Bool} {acc r : List Char} {w : Word} (hd : indq = false → delim '$' = false)
    (h3 : ∀ d ∈ (lineCont r).head?, startsParam d = false)
    (hw : WordRT L delim indq ['$'] (lineCont r).head? w) : WordRT L delim indq acc (some '$') (stringUnit acc ++ w) := by
  intro ml i buf
  obtain ⟨s, h4, h5, h6, h7, h8⟩ := hw ml i (buf ++ acc)
  refine ⟨'$' :: s, ?_, by simp, by simp, fun r _ => lineCont_id (by decide), ?_⟩
  · rw [printWord_append, printWord_stringUnit, h4]
    simp
  · intro b r1 hr k hk
    obtain ⟨k, rfl⟩ : ∃ k', k = k' + 1 := ⟨k - 1, by omega⟩
    simp only [List.length_cons] at hk
    have hr' := hr.of_append
    have hstart : ∀ d ∈ (s ++ r1).head?, startsParam d = false := by
      cases s with
      | nil =>
        intro d hd
        exact (hr.2 d hd).2 (by rw [h5 rfl]; exact ⟨stringUnit acc, rfl⟩)
      | cons c s =>
        have := h6 (by simp)
        simp at this
        rw [← this] at h3
        simpa using h3
    refine Ev.succ ?_
    obtain ⟨m0, hm0⟩ := h8 ('$' :: b) r1 hr' k (by omega)
    refine ⟨m0, fun m hm => ?_⟩
    show parseWordLoop (parser L (m + 1)).special delim (k + 1) indq acc _ = _
    rw [parseWordLoop]
    simp only [List.cons_append]
    rw [lineCont_id (by decide)]
    simp only
    rw [if_neg (by simpa using hd), if_neg (by decide), if_pos (by decide), special_eq,
      special_dollar _ _ _ _ (h7 r1 hr') hstart]
    simp only
    have := hm0 (m + 1) (by omega)
    simp only [special_eq] at this
    rw [this]
    simp

theorem stringUnit_append_cons {acc t : List Char} {u : WordUnit} {w : Word} (hu : ∀ t, u ≠ .str t) :
    stringUnit acc ++ u :: w ≠ [.str t] := by
  unfold stringUnit
  split
  · intro h
    simp at h
    exact hu _ h.1
  · simp

/-- The loop that reads a word. -/
theorem word_loop {special : Special} (hs : GoodSpecial L special) (delim : Char → Bool) (n : Nat) :
    ∀ indq acc b0 r0 w st, NT r0 → (acc = ['$'] → ∀ d ∈ (lineCont r0).head?, startsParam d = false) → parseWordLoop special delim n indq acc ⟨b0, r0⟩ = some (w, st) →
      WordResult L delim indq acc b0 r0 w st := by
  induction n with
  | zero => intro indq acc b0 r0 w st _ _ h; simp [parseWordLoop] at h
  | succ n ih =>
    intro indq acc b0 r0 w st hnt hacc h
    simp only [parseWordLoop] at h
    have hnt := hnt.lineCont
    have hnorm : lineCont (lineCont r0) = lineCont r0 := lineCont_idem r0
    cases hr : lineCont r0 with
    | nil =>
      rw [hr] at h
      simp only at h
      split at h
      · cases h
      · rename_i hdq
        simp at hdq
        subst hdq
        cases h
        exact {
          nt := NT.nil
          follow := Follow.nil _ _
          strs := fun t ht => (stringUnit_ne ht).2
          ne := fun hacc => by simp [stringUnit, hacc]
          text := by
            intro t ht
            have := (stringUnit_ne (acc := acc) (t := t) (by rw [ht]; simp)).1
            exact ⟨[], by simp [this], by simp⟩
          nil := fun _ => ⟨rfl, by simp [hr]⟩
          rt := fun _ => WordRT.done _ _ _ }
    | cons c r =>
      rw [hr] at h hnt hnorm
      simp only at h
      by_cases hd : (!indq && delim c) = true
      · rw [if_pos hd] at h
        simp at hd
        obtain ⟨rfl, hd⟩ := hd
        cases h
        exact {
          nt := hnt
          follow := by
            refine ⟨hnorm, ?_⟩
            intro d hd'
            simp at hd'
            subst hd'
            refine ⟨hd, fun he => hacc ?_ c (by simp [hr])⟩
            obtain ⟨w', hw'⟩ := he
            exact (stringUnit_ne (by rw [hw']; simp)).1.symm
          strs := fun t ht => (stringUnit_ne ht).2
          ne := fun hacc => by simp [stringUnit, hacc]
          text := by
            intro t ht
            have := (stringUnit_ne (acc := acc) (t := t) (by rw [ht]; simp)).1
            exact ⟨[], by simp [this], by simp⟩
          nil := fun _ => ⟨rfl, by simp [hr]⟩
          rt := fun _ => WordRT.done _ _ _ }
      rw [if_neg hd] at h
      by_cases hbs : c = '\\'
      · subst hbs
        rw [if_pos (by simp)] at h
        cases r with
        | nil => exact absurd rfl hnt
        | cons d r =>
          simp only at h
          have hdn : d ≠ '\n' := normal_bs hnorm
          have := ih _ _ _ _ _ _ hnt.tail.tail (by cases acc <;> simp) h
          refine this.step ['\\', d] (by simp) (by simp [hr]) (fun t _ => lineCont_bs_id hdn) ?_
          intro sp k b t _
          simp only [List.cons_append, List.nil_append]
          rw [parseWordLoop, lineCont_bs_id hdn]
          simp only
          rw [if_neg hd]
          simp
      rw [if_neg (by simp [hbs])] at h
      by_cases hsp : (c == '$' || c == '`') = true
      · rw [if_pos hsp] at h
        split at h
        · cases h
        · rename_i u st1 hu
          obtain ⟨h1, h2, h3⟩ := hs.unit _ _ _ _ _ _ hnt hu
          split at h
          · cases h
          · rename_i w1 st2 hw1
            cases h
            have := ih _ _ st1.before st1.rest _ _ h1 (by simp) hw1
            refine {
              nt := this.nt
              follow := ?_
              strs := ?_
              ne := by simp
              text := fun t ht => absurd ht (stringUnit_append_cons h2)
              nil := by simp
              rt := ?_ }
            · refine ⟨this.follow.1, fun d hd' => ⟨(this.follow.2 d hd').1, ?_⟩⟩
              intro he
              apply (this.follow.2 d hd').2
              have he := endsWithDollar_of_append he (by simp)
              by_cases hw1 : w1 = []
              · subst hw1
                obtain ⟨w', hw'⟩ := he
                have := congrArg List.getLast? hw'
                simp at this
                exact absurd this (h2 _)
              · exact endsWithDollar_of_append (a := [u]) he hw1
            · intro t ht
              simp at ht
              rcases ht with ht | ht | ht
              · exact (stringUnit_ne ht).2
              · exact absurd ht.symm (h2 t)
              · exact this.strs t ht
            · intro hok
              rw [WordOk_append] at hok
              obtain ⟨_, hok⟩ := hok
              simp only [WordOk] at hok
              obtain ⟨rfl, hu'⟩ := h3 hok.1
              exact WordRT.unit (by simpa using hd) (by rw [hr]; rfl) hu' (this.rt hok.2)
        · rename_i b1 hu
          have := (hs.dollar _ _ _ _ _ hu).2.1
          cases this
        · rename_i b1 d r1 hu
          obtain ⟨rfl, h2, h3⟩ := hs.dollar _ _ _ _ _ hu
          cases h2
          split at h
          · cases h
          · rename_i w1 st1 hw1
            cases h
            have := ih _ _ _ _ _ _ hnt.tail.lineCont (fun _ => by rw [lineCont_idem]; exact h3) hw1
            refine {
              nt := this.nt
              follow := ?_
              strs := ?_
              ne := fun _ => by have := this.ne (by simp); simp [this]
              text := ?_
              nil := fun h => absurd (List.append_eq_nil_iff.1 h).2 (this.ne (by simp))
              rt := ?_ }
            · refine ⟨this.follow.1, fun d hd' => ⟨(this.follow.2 d hd').1, ?_⟩⟩
              intro he
              apply (this.follow.2 d hd').2
              exact endsWithDollar_of_append he (this.ne (by simp))
            · intro t ht
              simp at ht
              rcases ht with ht | ht
              · exact (stringUnit_ne ht).2
              · exact this.strs t ht
            · intro t ht
              have hne := this.ne (by simp)
              cases acc with
              | nil =>
                obtain ⟨t', h4, h5⟩ := this.text t (by simpa [stringUnit] using ht)
                exact ⟨t, by simp, by simp [h4, h5]⟩
              | cons a acc =>
                simp [stringUnit] at ht
                exact absurd ht.2 hne
            · intro hok
              rw [WordOk_append] at hok
              rw [hr]
              refine WordRT.dollar (by simpa using hd) h3 ?_
              have := this.rt hok.2
              rw [lineCont_idem] at this
              exact this
      rw [if_neg hsp] at h
      by_cases hq : (c == '\'' && !indq) = true
      · rw [if_pos hq] at h
        simp at hq
        obtain ⟨rfl, rfl⟩ := hq
        split at h
        · cases h
        · rename_i r1 hr1
          obtain ⟨rfl, h2, h3⟩ := quote_split hr1
          rw [h2] at hnt
          have := ih _ _ _ _ _ _ hnt.tail.drop.tail (by cases acc <;> simp) h
          refine WordResult.step (r1 := r1) ('\'' :: r.takeWhile (· ≠ '\'') ++ ['\'']) (by simp) (by simpa using this) (by simp [hr])
            (fun t _ => lineCont_id (by decide)) ?_
          intro sp k b t _
          simp only [List.cons_append, List.nil_append]
          rw [parseWordLoop, lineCont_id (by decide)]
          simp only
          rw [if_neg hd, if_neg (by decide), if_neg (by decide), if_pos (by decide)]
          rw [List.append_assoc, List.singleton_append, (takeWhile_quote _ t h3).1, (takeWhile_quote _ t h3).2]
          simp
      rw [if_neg hq] at h
      have := ih _ _ _ _ _ _ hnt.tail (by
        intro he
        cases acc with
        | nil => simp at he; subst he; exact absurd rfl hsp
        | cons a acc => simp at he) h
      refine this.step [c] (by simp) (by simp [hr]) (fun t _ => lineCont_id hbs) ?_
      intro sp k b t _
      simp only [List.cons_append, List.nil_append]
      rw [parseWordLoop, lineCont_id hbs]
      simp only
      rw [if_neg hd, if_neg (by simp [hbs]), if_neg hsp, if_neg hq]
      simp

end Yash.Parser
