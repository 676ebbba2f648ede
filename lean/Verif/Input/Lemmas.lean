import Verif.Input.Spec
/-! # Lemmas: conversion of bytes piece by piece -/
set_option autoImplicit false

namespace Yash.Input

open Spec

variable {S : Type} {D : Decoder S}

theorem Spec.OneChar.ne_nil {s : S} {bs : List Byte} {c : Char} {s' : S} (h : OneChar D s bs c s') :
    bs ≠ [] := by
  cases h <;> simp

theorem text_nil {s s' : S} {bytes : List Byte} {cs : List Char} (h : Text D s bytes cs s')
    (hb : bytes = []) : cs = [] ∧ s = s' := by
  cases h with
  | nil => exact ⟨rfl, rfl⟩
  | cons s bs c s1 bytes cs s' h1 h2 => exact absurd (List.append_eq_nil_iff.1 hb).1 h1.ne_nil

/-- A whole character at the beginning of the buffer. -/
theorem mbrtowc_char {s : S} {bs : List Byte} {c : Char} {s' : S} (h : OneChar D s bs c s')
    (hc : c ≠ '\x00') (p : List Byte) :
    ∃ n, mbrtowc D s (bs ++ p) = .char c n s' ∧ n + 1 = bs.length := by
  induction h with
  | last s b c s' hs => exact ⟨0, by simp [mbrtowc, hs, hc], rfl⟩
  | more s b s1 bs c s' hs h ih =>
    obtain ⟨n, hn, hl⟩ := ih hc
    exact ⟨n + 1, by simp [mbrtowc, hs, hn], by simp [hl]⟩

/-- Only a part of a character in the buffer. -/
theorem mbrtowc_part {s : S} {bs : List Byte} {c : Char} {s' : S} (h : OneChar D s bs c s') :
    ∀ p q : List Byte, bs = p ++ q → q ≠ [] →
      ∃ s1, mbrtowc D s p = .incomplete s1 ∧ OneChar D s1 q c s' := by
  induction h with
  | last s b c s' hs =>
    intro p q hb hq
    cases p with
    | nil => exact ⟨s, rfl, by simp at hb; subst hb; exact .last _ _ _ _ hs⟩
    | cons a p =>
      simp at hb
      exact absurd hb.2.2 hq
  | more s b s1 bs c s' hs h ih =>
    intro p q hb hq
    cases p with
    | nil => exact ⟨s, rfl, by simp at hb; subst hb; exact .more _ _ _ _ _ _ hs h⟩
    | cons a p =>
      simp at hb
      obtain ⟨rfl, hb⟩ := hb
      obtain ⟨s2, h2, h3⟩ := ih p q hb hq
      exact ⟨s2, by simp [mbrtowc, hs, h2], h3⟩

/-- Two lists that have a common continuation: one is a prefix of the other. -/
theorem append_split {α : Type} {a b c d : List α} (h : a ++ b = c ++ d) :
    (∃ x, a = c ++ x ∧ d = x ++ b) ∨ (∃ x, c = a ++ x ∧ x ≠ [] ∧ b = x ++ d) := by
  rcases List.append_eq_append_iff.1 h with ⟨x, h1, h2⟩ | ⟨x, h1, h2⟩
  · cases x with
    | nil => exact .inl ⟨[], by simpa using h1.symm, by simpa using h2.symm⟩
    | cons y x => exact .inr ⟨y :: x, h1, by simp, h2⟩
  · exact .inl ⟨x, h1, h2⟩

/-- A line, with or without the newline. -/
def Line (cs : List Char) : Prop := '\x00' ∉ cs ∧ ∀ a b, cs = a ++ '\n' :: b → b = []

theorem Line.tail {c : Char} {cs : List Char} (h : Line (c :: cs)) : Line cs :=
  ⟨fun hm => h.1 (by simp [hm]), fun a b hab => h.2 (c :: a) b (by simp [hab])⟩

theorem convert_nil (s : S) (acc : List Char) : convert D s [] acc = (.more, ⟨s, [], acc⟩) := by
  rw [convert]; simp

/-- The conversion of a buffer that begins with the line or holds a part of it. -/
theorem convert_line {s : S} {bytes : List Byte} {cs : List Char} {s' : S}
    (h : Text D s bytes cs s') :
    Line cs → ∀ (p rest later : List Byte) (acc : List Char), p ++ later = bytes ++ rest →
      (cs.getLast? = some '\n' ∨ rest = []) →
      (∃ p', convert D s p acc = (.line, ⟨s', p', acc ++ cs⟩) ∧ p' ++ later = rest ∧
        cs.getLast? = some '\n' ∧ ∃ u, u ≠ [] ∧ p = u ++ p') ∨
      (∃ s1 p1 c1 c2 b2, convert D s p acc = (.more, ⟨s1, p1, acc ++ c1⟩) ∧ cs = c1 ++ c2 ∧
        later = b2 ++ rest ∧ Text D s1 b2 c2 s' ∧ Line c2 ∧ (c2 = [] → p1 = []) ∧
        (cs.getLast? = some '\n' → c2.getLast? = some '\n')) := by
  induction h with
  | nil s =>
    intro hl p rest later acc he hr
    simp at hr
    subst hr
    simp at he
    obtain ⟨rfl, rfl⟩ := he
    exact .inr ⟨s, [], [], [], [], by simp [convert_nil], rfl, rfl, .nil _, hl, by simp, by simp⟩
  | cons s bs c s1 bytes cs s' h1 h2 ih =>
    intro hl p rest later acc he hr
    rw [List.append_assoc] at he
    rcases append_split he with ⟨x, hp, hx⟩ | ⟨x, hp, hx, hlater⟩
    · have hp0 : p ≠ [] := by
        intro h; rw [h] at hp
        exact h1.ne_nil (List.append_eq_nil_iff.1 hp.symm).1
      obtain ⟨n, hm, hn⟩ := mbrtowc_char h1 (fun hc => hl.1 (by simp [hc])) x
      rw [← hp] at hm
      have hd : p.drop (n + 1) = x := by rw [hp, hn]; simp
      by_cases hc : c = '\n'
      · subst hc
        have hcs : cs = [] := hl.2 [] cs rfl
        subst hcs
        cases h2
        left
        refine ⟨x, ?_, by simpa using hx.symm, by simp, bs, h1.ne_nil, hp⟩
        rw [convert, dif_neg hp0, hm]
        simp [hd]
      · have hconv : convert D s p acc = convert D s1 x (acc ++ [c]) := by
          rw [convert, dif_neg hp0, hm]
          simp [hd, hc]
        have hlast : ∀ l : List Char, l ≠ [] → (c :: l).getLast? = l.getLast? := by
          intro l hl
          cases l with
          | nil => exact absurd rfl hl
          | cons a l => simp [List.getLast?_cons]
        have hlast' : (c :: cs).getLast? = some '\n' ↔ cs.getLast? = some '\n' := by
          cases cs with
          | nil => simp [hc]
          | cons a l => rw [hlast _ (by simp)]
        rcases ih hl.tail x rest later (acc ++ [c]) hx.symm (hr.imp hlast'.1 id) with
          ⟨p', e1, e2, e3, u, hu, e4⟩ | ⟨s2, p1, c1, c2, b2, e1, e2, e3, e4, e5, e6, e7⟩
        · left
          refine ⟨p', by rw [hconv, e1]; simp, e2, hlast'.2 e3, bs ++ u, ?_, ?_⟩
          · simp [h1.ne_nil]
          · rw [hp, e4, List.append_assoc]
        · right
          exact ⟨s2, p1, c :: c1, c2, b2, by rw [hconv, e1]; simp, by simp [e2], e3, e4, e5, e6,
            fun h => e7 (hlast'.1 h)⟩
    · right
      by_cases hp0 : p = []
      · subst hp0
        refine ⟨s, [], [], c :: cs, bs ++ bytes, by simp [convert_nil], rfl, ?_,
          .cons _ _ _ _ _ _ _ h1 h2, hl, by simp, id⟩
        rw [List.append_assoc]
        simpa using he
      · obtain ⟨s2, hm, h3⟩ := mbrtowc_part h1 p x hp hx
        refine ⟨s2, p, [], c :: cs, x ++ bytes, ?_, rfl, ?_, .cons _ _ _ _ _ _ _ h3 h2, hl,
          by simp, id⟩
        · rw [convert, dif_neg hp0, hm]; simp
        · rw [hlater, List.append_assoc]

/-- What a call that ends must give. -/
structure Good (data : List Byte) (rest : List Byte) (s' : S) (text : List Char) (size : Nat)
    (r : Result S) : Prop where
  status : r.status = if text = [] then .eof else .ok
  text : r.text = text
  state : r.state = s'
  unread : r.pending ++ data.drop r.pos = rest
  le : r.pos ≤ data.length
  before : ∃ b, data.take r.pos = b ++ r.pending
  pending : size = 1 → r.pending = []
  length : r.pending.length ≤ size

theorem finish_good {data rest : List Byte} {s' : S} {text : List Char} {size pos : Nat}
    {q : Progress S} (hs : q.state = s') (ht : q.text = text)
    (hu : q.pending ++ data.drop pos = rest) (hle : pos ≤ data.length)
    (hb : ∃ b, data.take pos = b ++ q.pending) (hp : size = 1 → q.pending = [])
    (hlen : q.pending.length ≤ size) : Good data rest s' text size (finish .eof pos q) := by
  refine ⟨?_, ht, hs, hu, hle, hb, hp, hlen⟩
  simp only [finish, ht]
  by_cases h : text = [] <;> simp [h]

theorem fill_good {data : List Byte} {size : Nat} (hsize : 0 < size) {rest : List Byte} {s' : S} :
    ∀ (sched : List Ev), NoError sched → ∀ (pos : Nat) (q : Progress S) (cs : List Char)
      (bytes : List Byte), pos ≤ data.length → Text D q.state bytes cs s' → Line cs →
      data.drop pos = bytes ++ rest → (cs.getLast? = some '\n' ∨ rest = []) →
      (cs = [] → q.pending = []) →
      (∀ r, fill D data size pos sched q = some r → Good data rest s' (q.text ++ cs) size r) ∧
      (bytes.length < reads sched → ∃ r, fill D data size pos sched q = some r) := by
  intro sched
  induction sched with
  | nil =>
    intro _ pos q cs bytes _ _ _ _ _ _
    exact ⟨by simp [fill], by simp [reads]⟩
  | cons e sched ih =>
    intro hne pos q cs bytes hle ht hl hd hr hq
    have hne' : NoError sched := fun x hx => hne x (by simp [hx])
    cases e with
    | interrupted => exact ih hne' pos q cs bytes hle ht hl hd hr hq
    | again => exact ih hne' pos q cs bytes hle ht hl hd hr hq
    | waitError => exact absurd rfl (hne .waitError (by simp)).1
    | readError => exact absurd rfl (hne .readError (by simp)).2
    | data k =>
      generalize hch : (data.drop pos).take (min (max k 1) size) = chunk
      by_cases hc0 : chunk = []
      · have hfill : fill D data size pos (.data k :: sched) q = some (finish .eof pos q) := by
          simp only [fill, hch, hc0, if_true]
        have hend : data.drop pos = [] := by
          rw [hc0, List.take_eq_nil_iff] at hch
          rcases hch with h | h
          · omega
          · exact h
        rw [hend] at hd
        obtain ⟨hb, hrest⟩ := List.append_eq_nil_iff.1 hd.symm
        subst hb hrest
        obtain ⟨hcs, hss⟩ := text_nil ht rfl
        subst hcs
        refine ⟨fun r h => ?_, fun _ => ⟨_, hfill⟩⟩
        rw [hfill] at h
        cases h
        exact finish_good hss (by simp) (by rw [hq rfl, hend]; rfl) hle
          ⟨data.take pos, by rw [hq rfl]; simp⟩
          (fun _ => hq rfl) (by rw [hq rfl]; simp)
      · have hlater : chunk ++ data.drop (pos + chunk.length) = data.drop pos := by
          obtain ⟨x, hx⟩ := List.take_prefix (min (max k 1) size) (data.drop pos)
          rw [hch] at hx
          rw [← List.drop_drop, ← hx]
          simp
        have hle' : pos + chunk.length ≤ data.length := by
          have := congrArg List.length hlater
          simp at this
          omega
        have hbefore : data.take (pos + chunk.length) = data.take pos ++ chunk := by
          rw [List.take_add]
          congr 1
          rw [← hlater]; simp
        have hclen : chunk.length ≤ size := by rw [← hch, List.length_take]; omega
        have hclen0 : 0 < chunk.length := by
          rcases Nat.eq_zero_or_pos chunk.length with h | h
          · exact absurd (List.eq_nil_of_length_eq_zero h) hc0
          · exact h
        rcases convert_line ht hl chunk rest (data.drop (pos + chunk.length)) q.text
          (by rw [hlater, hd]) hr with
          ⟨p', e1, e2, e3, u, hu, e4⟩ | ⟨s2, p1, c1, c2, b2, e1, e2, e3, e4, e5, e6, e7⟩
        · have hfill : fill D data size pos (.data k :: sched) q =
              some (finish .eof (pos + chunk.length) ⟨s', p', q.text ++ cs⟩) := by
            simp only [fill, hch, if_neg hc0, e1]
          refine ⟨fun r h => ?_, fun _ => ⟨_, hfill⟩⟩
          rw [hfill] at h
          cases h
          refine finish_good rfl rfl e2 hle' ⟨data.take pos ++ u, by
            rw [hbefore, e4, List.append_assoc]⟩ (fun h => ?_) ?_
          all_goals
            have : chunk.length = u.length + p'.length := by rw [e4]; simp
            have hu' : u.length ≠ 0 := fun h => hu (List.eq_nil_of_length_eq_zero h)
          case refine_2 => show p'.length ≤ size; omega
          exact List.eq_nil_of_length_eq_zero (by show p'.length = 0; omega)
        · have hfill : fill D data size pos (.data k :: sched) q =
              fill D data size (pos + chunk.length) sched ⟨s2, p1, q.text ++ c1⟩ := by
            simp only [fill, hch, if_neg hc0, e1]
          rw [hfill]
          have hr' : c2.getLast? = some '\n' ∨ rest = [] := hr.imp e7 id
          obtain ⟨ih1, ih2⟩ := ih hne' (pos + chunk.length) ⟨s2, p1, q.text ++ c1⟩ c2 b2 hle' e4 e5
            e3 hr' e6
          refine ⟨fun r h => ?_, fun h => ih2 ?_⟩
          · have := ih1 r h
            simp only [List.append_assoc] at this
            rw [e2]
            exact this
          · simp only [reads] at h
            have h1 := congrArg List.length hlater
            have h2 := congrArg List.length hd
            have h3 := congrArg List.length e3
            simp only [List.length_append] at h1 h2 h3
            omega

end Yash.Input
