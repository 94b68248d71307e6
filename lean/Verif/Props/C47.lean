import Verif.Props.C32
/-!
# C47: `BackupOldArchive` keeps the old archive
-/

namespace Lha

open Spec

variable (lost : List Nat → List Nat) (tmp : List Nat) (f : Fmt) (tab : Arr) (e : Env) (up : List Nat → List Nat)
    (m level : Nat) (name : List Nat) (excl : List (List Nat)) (items : List (List Nat × Option (List Nat)))
    (old : List Nat) (p : Proc)

/-- **C47 is false**: with `BackupOldArchive` set (first `true`), after a `CommandAdd` that reports success and has written something else to the
archive, no file holds the old contents any more, if only the archive did.  (The backup name consists of NULs and the error of `os.Rename` is ignored.) -/
theorem C47_false (hn : name ≠ [] ∧ 0 ∉ name) (hi : items ≠ []) (d : Disk) (ho : ∀ n, n ≠ name → d n ≠ some old) (c : CallOut)
    (hc : (commandAddT lost tmp true false f tab e up m level name excl false items (some old) p).res = .ok c) (hdiff : c.archive ≠ some old) :
    c.err = false ∧ ∀ n, runOps (commandAddT lost tmp true false f tab e up m level name excl false items (some old) p).ops d n ≠ some old := by
  obtain ⟨c1, c2⟩ := C32_complete lost tmp true f tab e up m level name excl false items (some old) p hn hi d c hc
  refine ⟨c1, fun n => ?_⟩
  by_cases hnn : n = name
  · rw [hnn, c2]
    exact hdiff
  obtain ⟨A, hA, ⟨_, x, h1⟩ | ⟨B, C, st, hB, hrun, h1, h2⟩⟩ := commandAddT_ops lost tmp true false f tab e up m level name excl false items (some old) p hi
  · rw [h1] at hc; cases hc
  · rw [show newName false name = name from rfl] at h1 h2
    rcases h2 with ⟨h, _⟩ | ⟨hn', gone, rfl, hg, hr⟩
    · rcases h with h | h
      · exact absurd h hn.1
      · exact absurd h hn.2
    · rw [h1, runOps_append, runOps_append, run_backup name hB]
      show runOps (gone.map .remove) (DiskOp.apply (.rename tmp name) (runOps A d)) n ≠ _
      have hap : DiskOp.apply (.rename tmp name) (runOps A d) = ((runOps A d).set tmp none).set name (some (st.new ++ [0])) := by
        simp only [DiskOp.apply]
        rw [hrun d]
        exact if_neg hn'
      rw [hap]
      have hbase : (((runOps A d).set tmp none).set name (some (st.new ++ [0]))) n ≠ some old := by
        simp only [Disk.set, if_neg hnn]
        split
        · simp
        · rename_i ht
          rw [touches_run ht A hA]
          exact ho n hnn
      generalize ((runOps A d).set tmp none).set name (some (st.new ++ [0])) = d1 at hbase
      clear hr hg h1 hap
      induction gone generalizing d1 with
      | nil => exact hbase
      | cons g gone ih =>
        refine ih (DiskOp.apply (.remove g) d1) ?_
        simp only [DiskOp.apply, Disk.set]
        split
        · simp
        · exact hbase

/-- **C47 (partial).** Full statement: after a successful `CommandAdd` with `BackupOldArchive` some file holds the old contents.  What is true: if the call
does not succeed (a panic, or an error of renaming) the old contents are still in the archive. -/
theorem C47_partial (sfx : Bool) (move : Bool) (htmp : tmp ≠ name) (hi : items ≠ []) (d : Disk) (hd : d name = some old)
    (hc : ∀ c, (commandAddT lost tmp true sfx f tab e up m level name excl move items (some old) p).res = .ok c → c.err = true) :
    runOps (commandAddT lost tmp true sfx f tab e up m level name excl move items (some old) p).ops d name = some old := by
  obtain ⟨A, hA, ⟨h1, _⟩ | ⟨B, C, st, hB, hrun, h1, h2⟩⟩ := commandAddT_ops lost tmp true sfx f tab e up m level name excl move items (some old) p hi
  · rw [h1, touches_run (Ne.symm htmp) A hA, hd]
  · rcases h2 with ⟨hn, rfl, _⟩ | ⟨_, gone, _, _, hr⟩
    · rw [h1, runOps_append, runOps_append, run_backup name hB]
      show DiskOp.apply (.rename tmp (newName sfx name)) (runOps A d) name = _
      simp only [DiskOp.apply]
      rw [hrun d]
      simp only [if_pos hn]
      rw [touches_run (Ne.symm htmp) A hA, hd]
    · exact absurd (hc _ hr) (by simp)

/-- Case covered by `C47_false`: the archive `a` of two bytes; the call succeeds and leaves an archive of one byte. -/
example (f : Fmt) (tab : Arr) (e : Env) (p : Proc) :
    let d : Disk := fun n => if n = [97] then some [0, 0] else none
    (∀ n, n ≠ [97] → d n ≠ some [0, 0]) ∧
    (commandAddT List.tail [116] true false f tab e id 5 0 [97] [] false [([98], none)] (some [0, 0]) p).res = .ok ⟨false, some [0], [], p⟩ ∧
    (some [0] : Option (List Nat)) ≠ some [0, 0] :=
  ⟨fun n hn => by simp [hn], rfl, by decide⟩

/-- Case covered by `C47_partial`: an archive `a.exe`; renaming fails. -/
example (f : Fmt) (tab : Arr) (e : Env) (p : Proc) :
    (commandAddT List.tail [116] true true f tab e id 5 0 [97, 46, 101, 120, 101] [] false [([98], none)] (some [0, 0]) p).res =
      .ok ⟨true, some [0, 0], [], p⟩ := by
  have h0 : newName true [97, 46, 101, 120, 101] = [] ∨ 0 ∈ newName true [97, 46, 101, 120, 101] := by
    right
    unfold newName
    rw [if_pos rfl]
    exact List.mem_append_right _ (List.mem_replicate.2 ⟨by decide, rfl⟩)
  unfold commandAddT
  rw [if_neg (by simp)]
  simp only [TG.res_bind, TG.res_issue, ok_bind]
  have h1 : (addItemsT List.tail [116] f tab e id 5 0 [97, 46, 101, 120, 101] [] [([98], none)] ⟨[], some [0, 0], p⟩).res = .ok ⟨[], some [0, 0], p⟩ := rfl
  have h2 : (oldOneT List.tail [116] f tab ⟨[], some [0, 0], p⟩).res = .ok ⟨[], some [0], p⟩ := rfl
  rw [h1, ok_bind, h2, ok_bind]
  have h3 : (backupT true (some [0, 0]) [97, 46, 101, 120, 101]).res = .ok () := rfl
  rw [h3, ok_bind, if_pos h0]
  rfl

end Lha
