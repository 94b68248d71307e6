import Verif.Props.C32Options
/-!
# C118: files can be added to a self-extracting archive

The name of such an archive ends in `.com` or `.exe`.
-/

namespace Lha

open Spec

variable (lost : List Nat → List Nat × Hdr) (tmp : List Nat) (f : Fmt) (tab : Arr) (e : Env) (up : List Nat → List Nat)
    (m level : Nat) (o : AddOpts) (name : List Nat) (excl : List (List Nat)) (items : List (List Nat × Option Src)) (arch : Option (List Nat)) (p : Proc)

theorem sfx_name (hn : name.length < 1024) : 0 ∈ newName true name := by
  unfold newName
  rw [if_pos rfl]
  exact List.mem_append_right _ (List.mem_replicate.2 ⟨by omega, rfl⟩)

/-- **C118 is false**: no call of `CommandAdd` for an existing self-extracting archive (with a name of less than 1024 bytes) succeeds, whatever is added, whatever the options (but `Noexec`). -/
theorem C118_false (hx : o.noexec = false) (hi : items ≠ []) (hn : name.length < 1024) (c : CallOut)
    (hc : (commandAddO lost tmp true f tab e up m level o name excl items arch p).res = .ok c) : c.err = true := by
  obtain ⟨A, hA, ⟨_, x, h1⟩ | ⟨B, C, st, hB, hrun, h1, ⟨_, _, h2⟩ | ⟨h2, _⟩⟩⟩ := commandAddO_ops lost tmp f tab e true up m level o name excl items arch p hx hi
  · rw [h1] at hc; cases hc
  · rw [h2] at hc; cases hc; rfl
  · exact absurd (Or.inr (sfx_name name hn)) h2

/-- **C118 (partial).**  Full statement: `CommandAdd` adds files to a self-extracting archive.  What is true: it reports that it has not, and takes nothing away: whether the call returns or panics,
every file but the temporary one is as before, and if it returns, it says that the archive is as before and that no file has been deleted. -/
theorem C118_partial (hx : o.noexec = false) (hi : items ≠ []) (hn : name.length < 1024) (d : Disk) :
    (∀ n, n ≠ tmp → runOps (commandAddO lost tmp true f tab e up m level o name excl items arch p).ops d n = d n) ∧
    ∀ c, (commandAddO lost tmp true f tab e up m level o name excl items arch p).res = .ok c → c.err = true ∧ c.archive = arch ∧ c.deleted = [] := by
  obtain ⟨A, hA, ⟨h1, x, h2⟩ | ⟨B, C, st, hB, hrun, h1, ⟨h3, h4, h2⟩ | ⟨h2, _⟩⟩⟩ := commandAddO_ops lost tmp f tab e true up m level o name excl items arch p hx hi
  · refine ⟨fun n hne => ?_, fun c hc => ?_⟩
    · rw [h1, touches_run hne A hA]
    · rw [h2] at hc; cases hc
  · refine ⟨fun n hne => ?_, fun c hc => ?_⟩
    · subst h4
      rw [h1, runOps_append, runOps_append, run_backup name hB]
      show DiskOp.apply (.rename tmp (newName true name)) (runOps A d) n = _
      simp only [DiskOp.apply]
      rw [hrun d]
      simp only [if_pos h3]
      exact touches_run hne A hA d
    · rw [h2] at hc; cases hc; exact ⟨rfl, rfl, rfl⟩
  · exact absurd (Or.inr (sfx_name name hn)) h2

/-- A case in which the call returns: an empty archive `a.exe`, a file that does not exist. -/
example (f : Fmt) (tab : Arr) (e : Env) (p : Proc) :
    (commandAddO (fun l => (l.tail, newHdr)) [116] true f tab e id 5 0 ⟨false, false, false, true, true⟩ [97, 46, 101, 120, 101] [] [([98], none)] (some [0]) p).res =
      .ok ⟨true, some [0], [], p⟩ := by
  have h0 := Or.inr (a := newName true [97, 46, 101, 120, 101] = []) (sfx_name [97, 46, 101, 120, 101] (by decide))
  unfold commandAddO
  rw [if_neg (by simp)]
  simp only [Bool.false_eq_true, if_false, TG.res_bind, TG.res_issue, ok_bind]
  have h1 : (addItemsO (fun l => (l.tail, newHdr)) [116] f tab e id 5 0 ⟨false, false, false, true, true⟩ [97, 46, 101, 120, 101] [] [([98], none)] ⟨[], some [0], p⟩).res = .ok ⟨[], some [0], p⟩ := rfl
  have h2 : (tailLoopO (fun l => (l.tail, newHdr)) [116] f tab ⟨false, false, false, true, true⟩ (oldFuel ⟨[], some [0], p⟩) newHdr ⟨[], some [0], p⟩).res = .ok ⟨[], some [], p⟩ := rfl
  rw [h1, ok_bind, h2, ok_bind]
  have h3 : (backupT true (some [0]) [97, 46, 101, 120, 101]).res = .ok () := rfl
  rw [h3, ok_bind, if_pos h0]
  rfl

end Lha
