import Verif.Path.Access
import Verif.Path.UmaskLemmas
/-!
# C34: the shell's own permission check
-/
set_option autoImplicit false

namespace Yash.Path

namespace Spec

/-- The class whose permissions apply to a process: the owner; or else the group, if the file's group
is the effective group or one of the supplementary groups; or else others. -/
def classOf (p : Process) (st : Stat) : Class :=
  if p.euid = st.uid then .owner
  else if p.egid = st.gid ∨ st.gid ∈ p.groups then .group
  else .others

/-- Whether a process may access a file: the superuser may read and write everything, search all
directories and execute what anyone may execute; others need the permission of their class. -/
def mayAccess (p : Process) (st : Stat) (r : Right) : Bool :=
  if p.euid = 0 then
    match r with
    | .read => true
    | .write => true
    | .exec => st.isDir || st.mode.getLsbD (place .owner .exec) || st.mode.getLsbD (place .group .exec) ||
        st.mode.getLsbD (place .others .exec)
  else st.mode.getLsbD (place (classOf p st) r)

end Spec

open Spec (Class Right place classOf mayAccess)

/-- The check that goes with a right. -/
def accessCheck : Right → System → Process → Option Stat → Bool
  | .read => isReadable
  | .write => isWritable
  | .exec => isExecutable

def rightBits : Right → BitVec 32
  | .read => 0o444#32
  | .write => 0o222#32
  | .exec => 0o111#32

def classBits : Class → BitVec 32
  | .owner => 0o700#32
  | .group => 0o070#32
  | .others => 0o007#32

theorem class_right (m : BitVec 32) (c : Class) (r : Right) :
    (m &&& rightBits r &&& classBits c != 0#32) = m.getLsbD (place c r) := by
  have key : rightBits r &&& classBits c = BitVec.twoPow 32 (place c r) := by
    cases c <;> cases r <;> decide
  have h0 : BitVec.twoPow 32 (place c r) ≠ 0#32 := by cases c <;> cases r <;> decide
  rw [BitVec.and_assoc, key]
  have := bit_iff m _ _ rfl h0
  cases h : m.getLsbD (place c r) with
  | true => exact bne_iff_ne.mpr (this.mpr h)
  | false =>
    refine Bool.eq_false_iff.mpr fun h' => ?_
    rw [this.mp (bne_iff_ne.mp h')] at h
    cases h

theorem groupLoop_eq (gid : Nat) (bits other : Bool) (gs : List Nat) :
    groupLoop gid bits other gs = if gid ∈ gs then bits else other := by
  induction gs with
  | nil => simp [groupLoop]
  | cons g gs ih =>
    rw [groupLoop]
    split
    · rename_i h; simp [h]
    · rename_i h; rw [ih]; simp [h]

/-- What the check does when the system cannot tell. -/
theorem check_eq (r : Right) (p : Process) (st : Stat) :
    accessCheck r .unknown p (some st) =
      if p.euid = 0 then mayAccess p st r
      else if p.euid = st.uid then st.mode.getLsbD (place .owner r)
      else if p.egid = st.gid ∨ p.egid ∈ p.groups then st.mode.getLsbD (place .group r)
      else st.mode.getLsbD (place .others r) := by
  have h : accessCheck r .unknown p (some st) = checkAccess .unknown p (some st) (rightBits r) := by
    cases r <;> rfl
  rw [h, checkAccess]
  simp only
  split
  · rename_i h0
    have hx := exec_iff st.mode
    unfold abs at hx
    have hb : (st.mode &&& 0o111#32 != 0#32) = (st.mode.getLsbD (place .owner .exec) ||
        st.mode.getLsbD (place .group .exec) || st.mode.getLsbD (place .others .exec)) := by
      cases hc : (st.mode.getLsbD (place .owner .exec) || st.mode.getLsbD (place .group .exec) ||
          st.mode.getLsbD (place .others .exec)) with
      | false => rw [hx.mpr hc]; rfl
      | true => exact bne_iff_ne.mpr fun h => by rw [hx.mp h] at hc; cases hc
    cases r with
    | read => simp [rightBits, mayAccess, h0]
    | write => simp [rightBits, mayAccess, h0]
    | exec =>
      rw [hb]
      simp only [mayAccess, h0, if_true, rightBits, Bool.or_assoc]
      rfl
  · split
    · exact class_right st.mode .owner r
    · rw [groupLoop_eq]
      have hg := class_right st.mode .group r
      have ho := class_right st.mode .others r
      simp only [classBits] at hg ho
      rw [hg, ho]
      split
      · rename_i h1; rw [if_pos (Or.inl h1)]
      · rename_i h1; simp [h1]

/-- **C34, partial.**  When the system cannot check the access, the shell's own check gives the right
answer if the process is the superuser or the owner of the file, if the file's group is the effective
group, and also if the file's group is among the supplementary groups exactly if the effective group
is.  Missing: all other cases; see `C34_wrong`. -/
theorem C34_access_partial (r : Right) (p : Process) (st : Stat)
    (h : p.euid = 0 ∨ p.euid = st.uid ∨ p.egid = st.gid ∨ (p.egid ∈ p.groups ↔ st.gid ∈ p.groups)) :
    accessCheck r .unknown p (some st) = mayAccess p st r := by
  rw [check_eq]
  split
  · rfl
  · rename_i h0
    simp only [mayAccess, if_neg h0, classOf]
    split
    · rfl
    · rename_i h1
      rcases h with h | h | h | h
      · exact absurd h h0
      · exact absurd h h1
      · simp [h]
      · simp only [h]
        split <;> rfl

/-- The hypotheses are met: a process without supplementary groups. -/
example : accessCheck .write .unknown ⟨1000, 100, []⟩ (some ⟨0o664#32, 0, 100, false⟩) = true := by decide

/-- A file that does not exist is not accessible. -/
theorem C34_missing (r : Right) (p : Process) : accessCheck r .unknown p none = false := by cases r <;> rfl

/-- If the system can tell, its answer is used. -/
theorem C34_system (r : Right) (p : Process) (st : Option Stat) :
    accessCheck r .allowed p st = true ∧ accessCheck r .refused p st = false := by
  cases r <;> exact ⟨rfl, rfl⟩

/-- In the remaining cases the check is wrong for every file whose permissions differ for the group and
for others. -/
theorem C34_wrong (r : Right) (p : Process) (st : Stat) (h0 : p.euid ≠ 0) (h1 : p.euid ≠ st.uid)
    (h2 : p.egid ≠ st.gid) (h3 : ¬(p.egid ∈ p.groups ↔ st.gid ∈ p.groups))
    (h4 : st.mode.getLsbD (place .group r) ≠ st.mode.getLsbD (place .others r)) :
    accessCheck r .unknown p (some st) ≠ mayAccess p st r := by
  rw [check_eq, if_neg h0, if_neg h1]
  simp only [mayAccess, if_neg h0, classOf, if_neg h1, h2, false_or]
  by_cases ha : p.egid ∈ p.groups
  · by_cases hb : st.gid ∈ p.groups
    · exact absurd ⟨fun _ => hb, fun _ => ha⟩ h3
    · rw [if_pos ha, if_neg hb]; exact h4
  · by_cases hb : st.gid ∈ p.groups
    · rw [if_neg ha, if_pos hb]; exact h4.symm
    · exact absurd ⟨fun h => absurd h ha, fun h => absurd h hb⟩ h3

/-- A member of the group 50 may write a file of that group, but the check denies it; and a process
whose effective group is listed among its groups, as usual, is said to be able to read a file of an
other group that only that group may read. -/
theorem C34_supplementary_violates :
    (accessCheck .write .unknown ⟨1000, 100, [50]⟩ (some ⟨0o660#32, 0, 50, false⟩) = false ∧
      mayAccess ⟨1000, 100, [50]⟩ ⟨0o660#32, 0, 50, false⟩ .write = true) ∧
    (accessCheck .read .unknown ⟨1000, 100, [100]⟩ (some ⟨0o640#32, 0, 50, false⟩) = true ∧
      mayAccess ⟨1000, 100, [100]⟩ ⟨0o640#32, 0, 50, false⟩ .read = false) := by
  decide

end Yash.Path
