import Verif.Ulimit.Props
/-! # Examples for property C86 -/
set_option autoImplicit false

namespace Yash.Ulimit.Examples

open Spec

/-- The values of Linux. -/
def C : Config := ⟨2 ^ 64, 2 ^ 64, 2 ^ 64 - 1, 2 ^ 64 - 1, 2 ^ 64 - 1, false, fun c => '0' ≤ c && c ≤ '9'⟩

/-- A user who must not raise a hard limit. -/
def sys : System := ⟨fun _ => true, fun s c l => decide (l.max ≤ (s c).max)⟩

def s : State := fun c => if c = 's' then ⟨8388608, 2 ^ 64 - 1⟩ else if c = 'n' then ⟨1024, 4096⟩ else ⟨2 ^ 64 - 1, 2 ^ 64 - 1⟩

/-- `-Hn 2000`. -/
theorem usage : Usage "Hn".toList ["-Hn".toList, "2000".toList] ["2000".toList] :=
  Usage.options (letters := "Hn".toList) (more := []) (by decide) (by decide) (.operands (by decide))

theorem usage_soft : Usage "Ss".toList ["-S".toList, "-s".toList] [] :=
  Usage.options (letters := ['S']) (more := ['s']) (by decide) (by decide) (Usage.options (letters := ['s']) (more := []) (by decide) (by decide) (.operands (by decide)))

theorem selects : Selects "Hn".toList true false := Selects.hard (before := []) (after := ['n']) (by decide) (by decide)
theorem selects_soft : Selects "Ss".toList false true := Selects.soft (before := []) (after := ['s']) (by decide) (by decide)
theorem chooses : Chooses "Hn".toList 'n' 1 := Chooses.last (before := ['H']) (after := []) rfl (by decide)
theorem chooses_soft : Chooses "Ss".toList 's' 1024 := Chooses.last (before := ['S']) (after := []) rfl (by decide)

/-- The hypotheses of `limit_set`, `limit_printed`, `printed_restores`, `usage_errors` and `all_printed` are met. -/
example := limit_set (C := C) (by decide) sys usage (by decide) selects chooses s
example := limit_printed (C := C) sys usage_soft (by decide) selects_soft chooses_soft s rfl
example := printed_restores (C := C) (by decide) (by decide) sys usage_soft (by decide) selects_soft chooses_soft s rfl (old := 8388608) rfl (by decide) (fun _ => by unfold Ordinary; decide)
example := usage_errors C sys (letters := []) (args := ["1".toList, "2".toList]) (.operands (by decide)) (.inl ⟨by simp, by decide⟩) s
example := usage_errors C sys (letters := "an".toList) (args := ["-an".toList]) (Usage.options (letters := "an".toList) (more := []) (by decide) (by decide) (.operands (by simp))) (.inr ⟨by decide, .inr ⟨'n', by decide, by decide⟩⟩) s
example := all_printed C sys (letters := ['a']) (args := ["-a".toList]) (Usage.options (letters := ['a']) (more := []) (by decide) (by decide) (.operands (by simp))) (by decide) (by decide) (.both (by decide) (by decide)) s

/-- What is seen of the outcome. -/
def seen (args : List String) (c : Char) : Option (Limit × String × Status) := (ulimitBuiltin C sys (args.map String.toList) s).map fun r => (r.1 c, String.ofList r.2.1, r.2.2)

example : seen ["-Hn", "2000"] 'n' = some (⟨1024, 2000⟩, "", .success) := by decide +kernel
example : seen ["-n", "2000"] 'n' = some (⟨2000, 2000⟩, "", .success) := by decide +kernel
example : seen ["-Sn", "hard"] 'n' = some (⟨4096, 4096⟩, "", .success) := by decide +kernel
/-- The soft limit would be above the hard limit. -/
example : seen ["-Hn", "1000"] 'n' = some (⟨1024, 4096⟩, "", .failure) := by decide +kernel
example : seen ["-Sn", "unlimited"] 'n' = some (⟨1024, 4096⟩, "", .failure) := by decide +kernel
/-- The system refuses. -/
example : seen ["-n", "5000"] 'n' = some (⟨1024, 4096⟩, "", .failure) := by decide +kernel
/-- 2^54 kilobytes are too many. -/
example : seen ["-s", "18014398509481984"] 's' = some (⟨8388608, 2 ^ 64 - 1⟩, "", .failure) := by decide +kernel
example : seen ["-s", "1x"] 's' = some (⟨8388608, 2 ^ 64 - 1⟩, "", .error) := by decide +kernel
example : seen ["-s"] 's' = some (⟨8388608, 2 ^ 64 - 1⟩, "8192\n", .success) := by decide +kernel
example : seen ["-H", "-s"] 's' = some (⟨8388608, 2 ^ 64 - 1⟩, "unlimited\n", .success) := by decide +kernel

end Yash.Ulimit.Examples
