import Verif.Model.Header
/-!
# C36: Unix permissions do not survive archiving

The property is false: `initHeader` adds the decimal constants 33000 and 40000 where the octal 0100000 and 040000 are meant.
-/

namespace Lha

/-- The permission bits (low nine bits of the mode) recorded for a regular file never equal those of the file, whatever they
are. -/
theorem C36_false (e : Env) (level : Nat) (name : List Nat) (size : Nat) (hp : e.perm < 512) :
    (initHeader e level name size false).mode % 512 ≠ e.perm := by
  unfold initHeader
  simp only [Bool.false_eq_true, if_false]
  omega

/-- Neither do those of a directory; and its recorded file type (mode divided by 4096) is not that of a directory. -/
theorem C36_false_dir (e : Env) (level : Nat) (name : List Nat) (size : Nat) (hp : e.perm < 512) :
    (initHeader e level name size true).mode % 512 ≠ e.perm ∧ (initHeader e level name size true).mode / 4096 ≠ 0o040000 / 4096 := by
  unfold initHeader
  simp only [if_true]
  omega

/-- What is left of the property: the recorded type of a regular file is that of a regular file, and the permissions can be
recovered by subtracting 232 modulo 512. -/
theorem C36_partial (e : Env) (level : Nat) (name : List Nat) (size : Nat) (hp : e.perm < 512) :
    (initHeader e level name size false).mode / 4096 = 0o100000 / 4096 ∧
    ((initHeader e level name size false).mode + 280) % 512 = e.perm := by
  unfold initHeader
  simp only [Bool.false_eq_true, if_false]
  omega

/-- `rw-r--r--` (0644) is recorded as 0214 (plus the sticky bit). -/
theorem C36_witness : (initHeader ⟨0, 0o644, 0, 0, fun _ => ⟨1970, 1, 1, 0, 0, 0⟩⟩ 0 [97] 5 false).mode = 0o101214 := by decide

example : (0o644 : Nat) < 512 := by decide

end Lha
