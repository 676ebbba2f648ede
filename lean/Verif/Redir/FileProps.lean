import Verif.Redir.File
/-!
# Properties of opening files (C46)
-/
set_option autoImplicit false

namespace Yash.Redir.File

open Syntax (FileRedir)

variable {P : Type} [DecidableEq P]

namespace Spec

/-- A system call has left alone every file that existed: no data is lost and nothing is renamed or removed. -/
def Harmless (before after : Fs P) : Prop :=
  (∀ n, n < before.next → after.data n = before.data n ∧ after.regular n = before.regular n) ∧
  ∀ p id, before.dir p = .to id → after.dir p = .to id

/-- The system call has made the file: there was nothing at the path and now there is an empty new file. -/
def Creates (path : P) (id : Nat) (before after : Fs P) : Prop :=
  before.dir path = .missing ∧ after.dir path = .to id ∧ before.next ≤ id ∧ after.data id = [] ∧ after.regular id = true

end Spec

open Spec (Harmless Creates)

theorem harmless_refl (fs : Fs P) : Harmless fs fs := ⟨fun _ _ => ⟨rfl, rfl⟩, fun _ _ h => h⟩

theorem harmless_create (path : P) (fs : Fs P) (h : ∀ id, fs.dir path ≠ .to id) : Harmless fs (create path fs) := by
  refine ⟨fun n hn => ?_, fun p id hp => ?_⟩
  · have : n ≠ fs.next := by omega
    simp [create, this]
  · have : p ≠ path := by
      rintro rfl
      exact h id hp
    simp [create, this, hp]

/-- Without `O_TRUNC`, opening a file does no harm. -/
theorem sysOpen_harmless (path : P) (f : Flags) (deny : Bool) (fs : Fs P) (ht : f.trunc = false) :
    Harmless fs (sysOpen path f deny fs).1 := by
  unfold sysOpen
  cases h : fs.dir path with
  | missing =>
    simp only
    split
    · split
      · exact harmless_refl fs
      · exact harmless_create path fs (by simp [h])
    · exact harmless_refl fs
  | dangling =>
    simp only
    split
    · split
      · exact harmless_refl fs
      · split
        · exact harmless_refl fs
        · exact harmless_create path fs (by simp [h])
    · exact harmless_refl fs
  | to id =>
    simp only [ht, Bool.false_and, Bool.false_eq_true, if_false]
    split
    · exact harmless_refl fs
    · split <;> exact harmless_refl fs

theorem orSocket_calls (W : World P) (path : P) (r : Run P) : (orSocket W path r).calls = r.calls ∧ (orSocket W path r).fs = r.fs := by
  unfold orSocket
  split
  · exact ⟨rfl, rfl⟩
  · split <;> exact ⟨rfl, rfl⟩

theorem orSocket_file (W : World P) (path : P) (r : Run P) (id : Nat) (f : Flags) :
    (orSocket W path r).res = some (.file id f) ↔ r.res = some (.file id f) := by
  unfold orSocket
  split
  · exact Iff.rfl
  · next h =>
    split
    · simp [h]
    · exact Iff.rfl

/-- C46: with the `noclobber` option, `>` harms no file, whatever other processes do in the meantime. -/
theorem C46_noclobber_harmless (W : World P) (path : P) (fs : Fs P) :
    ∀ c, c ∈ (openFile W path (flagsOf false .output) fs).calls → Harmless c.1 c.2 := by
  intro c hc
  have h1 : Harmless fs (sysOpen path (flagsOf false .output) W.deny1 fs).1 := sysOpen_harmless _ _ _ _ rfl
  unfold openFile at hc
  rcases ho : sysOpen path (flagsOf false .output) W.deny1 fs with ⟨fs', r⟩
  rw [ho] at hc h1
  cases r with
  | ok id =>
    simp only [List.mem_cons, List.not_mem_nil, or_false] at hc
    rw [hc]
    exact h1
  | error e =>
    simp only at hc
    split at hc
    · rw [(orSocket_calls W path _).1] at hc
      simp only [List.mem_cons] at hc
      rcases hc with rfl | hc
      · exact h1
      · unfold retry at hc
        generalize W.others1 fs' = fs1 at hc
        have h2 := sysOpen_harmless path { flagsOf false .output with creat := false, excl := false, trunc := false } W.deny2 fs1 rfl
        simp only at hc
        rcases ho2 : sysOpen path { flagsOf false .output with creat := false, excl := false, trunc := false } W.deny2 fs1 with ⟨fs2, r2⟩
        rw [ho2] at hc h2
        cases r2 with
        | error e2 =>
          simp only [List.mem_cons, List.not_mem_nil, or_false] at hc
          rw [hc]
          exact h2
        | ok id2 =>
          simp only at hc
          split at hc <;>
          · simp only [List.mem_cons, List.not_mem_nil, or_false] at hc
            rw [hc]
            exact h2
    · rw [(orSocket_calls W path _).1] at hc
      simp only [List.mem_cons, List.not_mem_nil, or_false] at hc
      rw [hc]
      exact h1

/-- C46: with the `noclobber` option, a regular file that `>` opens has been created by `>` itself, in its first system
call; anything else that it opens is not a regular file. -/
theorem C46_noclobber_new (W : World P) (path : P) (fs : Fs P) (id : Nat) (f : Flags) (hstat : W.nostat = false)
    (h : (openFile W path (flagsOf false .output) fs).res = some (.file id f)) :
    (∃ fs', (openFile W path (flagsOf false .output) fs).calls = [(fs, fs')] ∧ Creates path id fs fs') ∨
    (openFile W path (flagsOf false .output) fs).fs.regular id = false := by
  unfold openFile at h ⊢
  rcases ho : sysOpen path (flagsOf false .output) W.deny1 fs with ⟨fs', r⟩
  rw [ho] at h
  cases r with
  | ok id0 =>
    simp only [Option.some.injEq, Opened.file.injEq] at h
    obtain ⟨rfl, _⟩ := h
    left
    refine ⟨fs', rfl, ?_⟩
    unfold sysOpen at ho
    simp only [flagsOf, Bool.false_eq_true, if_false, if_true, Bool.and_self] at ho
    cases hd : fs.dir path with
    | missing =>
      rw [hd] at ho
      simp only at ho
      cases hdeny : W.deny1 with
      | true => rw [hdeny] at ho; simp at ho
      | false =>
        rw [hdeny] at ho
        simp only [Bool.false_eq_true, if_false, Prod.mk.injEq, Except.ok.injEq] at ho
        obtain ⟨rfl, rfl⟩ := ho
        simp [Creates, hd, create]
    | dangling => rw [hd] at ho; simp at ho
    | to k => rw [hd] at ho; simp at ho
  | error e =>
    right
    simp only at h ⊢
    split at h
    · next hc =>
      rw [if_pos hc, (orSocket_calls W path _).2]
      rw [orSocket_file] at h
      simp only at h ⊢
      unfold retry at h ⊢
      simp only at h ⊢
      split at h
      · cases h
      · next id2 ho2 =>
        simp only [hstat, Bool.not_false, Bool.true_and] at h ⊢
        split at h
        · cases h
        · next hreg =>
          simp only [Option.some.injEq, Opened.file.injEq] at h
          obtain ⟨rfl, _⟩ := h
          rw [if_neg hreg]
          simpa using hreg
    · rw [orSocket_file] at h
      cases h

/-- C46: in any case, `<`, `>>` and `<>` harm no file. -/
theorem C46_others_harmless (W : World P) (path : P) (fs : Fs P) (clobber : Bool) (type : FileRedir)
    (ht : type = .input ∨ type = .append ∨ type = .inout) :
    ∀ c, c ∈ (openFile W path (flagsOf clobber type) fs).calls → Harmless c.1 c.2 := by
  intro c hc
  have he : (flagsOf clobber type).excl = false ∧ (flagsOf clobber type).trunc = false := by
    rcases ht with rfl | rfl | rfl <;> exact ⟨rfl, rfl⟩
  have h1 := sysOpen_harmless path (flagsOf clobber type) W.deny1 fs he.2
  unfold openFile at hc
  rcases ho : sysOpen path (flagsOf clobber type) W.deny1 fs with ⟨fs', r⟩
  rw [ho] at hc h1
  cases r with
  | ok id =>
    simp only [List.mem_cons, List.not_mem_nil, or_false] at hc
    rw [hc]
    exact h1
  | error e =>
    simp only [he.1, Bool.false_and, Bool.false_eq_true, if_false] at hc
    rw [(orSocket_calls W path _).1] at hc
    simp only [List.mem_cons, List.not_mem_nil, or_false] at hc
    rw [hc]
    exact h1

/-- C46: without the option, and with `>|` always, an existing regular file is emptied; no other file is touched. -/
theorem C46_clobber (W : World P) (path : P) (fs : Fs P) (clobber : Bool) (type : FileRedir) (id : Nat)
    (ht : type = .clobber ∨ (type = .output ∧ clobber = true)) (hid : fs.dir path = .to id) (hr : fs.regular id = true)
    (hd : W.deny1 = false) :
    ∃ f, (openFile W path (flagsOf clobber type) fs).res = some (.file id f) ∧ f.write = true ∧
      (openFile W path (flagsOf clobber type) fs).fs = { fs with data := fun n => if n = id then [] else fs.data n } := by
  have hf : flagsOf clobber type = { write := true, creat := true, trunc := true } := by
    rcases ht with rfl | ⟨rfl, rfl⟩ <;> rfl
  rw [hf]
  unfold openFile sysOpen
  simp [hid, hr, hd]

/-- C46: appending opens an existing file in append mode. -/
theorem C46_append (W : World P) (path : P) (fs : Fs P) (clobber : Bool) (id : Nat) (hid : fs.dir path = .to id) (hd : W.deny1 = false) :
    ∃ f, (openFile W path (flagsOf clobber .append) fs).res = some (.file id f) ∧ f.write = true ∧ f.append = true ∧
      (openFile W path (flagsOf clobber .append) fs).fs = fs := by
  unfold openFile sysOpen
  simp [hid, hd, flagsOf]

theorem writeAll_all (f : List Nat → Nat) (n : Nat) : ∀ d : List Nat, d.length ≤ n → writeAll f n d = (d, []) := by
  induction n with
  | zero =>
    intro d hd
    rw [List.length_eq_zero_iff.1 (by omega : d.length = 0)]
    rfl
  | succ n ih =>
    intro d hd
    cases d with
    | nil => rfl
    | cons b d =>
      rw [writeAll]
      simp only
      rw [ih _ (by simp only [List.length_drop, List.length_cons] at hd ⊢; omega)]
      simp only [List.take_append_drop]

/-- C46: a here-document or here-string delivers exactly its contents, whether through a pipe or a file and however
the data are split when written. -/
theorem C46_here (pipeBuf : Nat) (null pipe temp : Bool) (f : List Nat → Nat) (s d : List Nat) (newline : Bool)
    (h : hereString pipeBuf null pipe temp f s newline = some d) : d = if newline then s ++ [10] else s := by
  unfold hereString at h
  split at h
  · next hc =>
    simp only [Bool.and_eq_true, Bool.not_eq_true', decide_eq_true_eq] at hc
    obtain ⟨⟨rfl, rfl⟩, _⟩ := hc
    cases h
    rfl
  · simp only at h
    generalize (if newline = true then s ++ [10] else s) = d0 at h ⊢
    split at h
    · cases h
      rfl
    · split at h
      · rw [writeAll_all f _ _ (Nat.le_refl _)] at h
        cases h
        rfl
      · cases h

/-! ## Examples -/

namespace Example

def disk : Fs Nat where
  dir := fun p => if p = 0 then .to 0 else if p = 1 then .to 1 else if p = 2 then .dangling else .missing
  regular := fun n => decide (n = 0)
  data := fun n => if n = 0 then [1, 2, 3] else []
  next := 2

def quiet : World Nat := ⟨id, id, false, false, false, fun _ => false⟩

-- a new file, a device, an existing file and a dangling link
example : (openFile quiet 3 (flagsOf false .output) disk).res = some (.file 2 { write := true, creat := true, excl := true }) ∧
    (openFile quiet 1 (flagsOf false .output) disk).res = some (.file 1 { write := true }) ∧
    (openFile quiet 0 (flagsOf false .output) disk).res = none ∧
    (openFile quiet 2 (flagsOf false .output) disk).res = none ∧
    (openFile quiet 2 (flagsOf true .output) disk).res.isSome = true := by decide

-- the device is replaced by a regular file between the two system calls
example : (openFile { quiet with others1 := fun fs => { fs with dir := fun _ => .to 0 } } 1 (flagsOf false .output) disk).res = none := by
  decide

example : disk.dir 0 = .to 0 ∧ disk.regular 0 = true ∧ (openFile quiet 0 (flagsOf true .output) disk).fs.data 0 = [] ∧
    (openFile quiet 0 (flagsOf false .append) disk).fs.data 0 = [1, 2, 3] := by decide

example : hereString 4 true true true (fun _ => 1) [1, 2, 3, 4, 5] true = some [1, 2, 3, 4, 5, 10] := by decide

end Example

/-- C46 (negative): were `fstat` to fail, an existing regular file would be accepted (but not emptied). -/
theorem C46_stat_failure_accepts : ∃ (W : World Nat) (fs : Fs Nat), W.nostat = true ∧ fs.dir 0 = .to 0 ∧ fs.regular 0 = true ∧
    (openFile W 0 (flagsOf false .output) fs).res = some (.file 0 { write := true }) ∧
    (openFile W 0 (flagsOf false .output) fs).fs.data 0 = fs.data 0 :=
  ⟨{ Example.quiet with nostat := true }, Example.disk, by decide⟩

end Yash.Redir.File
