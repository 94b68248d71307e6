import Verif.Props.C32
import Verif.Proof.Append
/-!
# C32 with all options

`Verif.Props.C32` is about `CommandAdd` with `SortContents`, `UpdateIfNewer` and `Noexec` off and regular files as arguments.  Here they may have any value, and
directories, symbolic links and unreadable files may be among the arguments.
-/

namespace Lha

open Spec

variable (lost : List Nat → List Nat × Hdr) (tmp : List Nat) (sfx : Bool) (f : Fmt) (tab : Arr) (e : Env) (up : List Nat → List Nat)
    (m level : Nat) (o : AddOpts) (name : List Nat) (excl : List (List Nat)) (items : List (List Nat × Option Src)) (arch : Option (List Nat)) (p : Proc)

/-- **C32 for all options.** In whatever state the process leaves the disk if it dies (or panics) while `CommandAdd` is running, the archive holds what it held
before, or what it holds after a `CommandAdd` that runs to its end. -/
theorem C32_options (htmp : tmp ≠ name) (hx : o.noexec = false) (d : Disk) (hd : d name = arch) (d' : Disk)
    (hc : Crash (commandAddO lost tmp sfx f tab e up m level o name excl items arch p).ops d d') :
    d' name = arch ∨ ∃ c, (commandAddO lost tmp sfx f tab e up m level o name excl items arch p).res = .ok c ∧ d' name = c.archive := by
  by_cases hi : items = []
  · left
    have : (commandAddO lost tmp sfx f tab e up m level o name excl items arch p).On tmp := by
      unfold commandAddO
      rw [if_pos hi]
      unfold updateAllO
      split
      · cases arch with
        | none => exact TG.On.lift _
        | some a =>
          simp only [hx, Bool.false_eq_true, if_false]
          refine TG.On.bind ?_ fun _ => (TG.On.lift _).bind fun _ => TG.On.lift _
          exact TG.On.one (n := tmp) (o := .create tmp) rfl
      · exact TG.On.lift _
    rw [touches_crash (Ne.symm htmp) this hc, hd]
  obtain ⟨A, hA, ⟨h1, _⟩ | ⟨B, C, st, hB, hrun, h1, h2⟩⟩ := commandAddO_ops lost tmp f tab e sfx up m level o name excl items arch p hx hi
  · rw [h1] at hc
    left
    rw [touches_crash (Ne.symm htmp) hA hc, hd]
  · rw [h1] at hc
    have hAn : runOps A d name = arch := by rw [touches_run (Ne.symm htmp) A hA, hd]
    rcases hc.append with hc | hc
    · left
      rw [touches_crash (Ne.symm htmp) hA hc, hd]
    rcases hc.append with hc | hc
    · left
      rw [crash_backup name hB hc, hAn]
    rw [run_backup name hB] at hc
    have hc' : Crash ([.rename tmp (newName sfx name)] ++ C) (runOps A d) d' := hc
    rcases h2 with ⟨hn, rfl, _⟩ | ⟨hn, gone, rfl, hg, hr⟩
    · left
      have hno : DiskOp.apply (.rename tmp (newName sfx name)) (runOps A d) = runOps A d := by
        simp only [DiskOp.apply]
        rw [hrun d]
        exact if_pos hn
      rw [List.append_nil] at hc'
      rcases hc'.single with h | h | h
      · rw [h, hAn]
      · rcases h with h | h
        · rw [h, hAn]
        · rw [h, hno, hAn]
      · rw [h, hno, hAn]
    · have hap : DiskOp.apply (.rename tmp (newName sfx name)) (runOps A d) =
          ((runOps A d).set tmp none).set (newName sfx name) (some (st.new ++ [0])) := by
        simp only [DiskOp.apply]
        rw [hrun d]
        exact if_neg hn
      have hname : DiskOp.apply (.rename tmp (newName sfx name)) (runOps A d) name = arch ∨
          DiskOp.apply (.rename tmp (newName sfx name)) (runOps A d) name = some (st.new ++ [0]) := by
        rw [hap]
        by_cases g : name = newName sfx name
        · right
          simp only [Disk.set, if_pos g]
        · left
          simp only [Disk.set, if_neg g, if_neg (Ne.symm htmp)]
          exact hAn
      have hng : name ∉ gone := fun h => (hg name h).2.1 rfl
      have fin : d' name = arch ∨ d' name = some (st.new ++ [0]) := by
        rcases hc'.append with h | h
        · rcases h.single with h | h | h
          · left; rw [h, hAn]
          · rcases h with h | h
            · left; rw [h, hAn]
            · rw [h]; exact hname
          · rw [h]; exact hname
        · rw [crash_remove hng h]
          exact hname
      rcases fin with h | h
      · exact Or.inl h
      · exact Or.inr ⟨_, hr, h⟩

/-- A call with `UpdateIfNewer` and `SortContents` that comes to its end. -/
example (f : Fmt) (tab : Arr) (e : Env) (p : Proc) :
    ([116] : List Nat) ≠ [97] ∧ (⟨true, true, false, false, true⟩ : AddOpts).noexec = false ∧
    (commandAddO (fun l => (l, newHdr)) [116] false f tab e id 5 0 ⟨true, true, false, false, true⟩ [97] [] [([98], none)] (some [0]) p).res =
      .ok ⟨false, some [0], [], p⟩ := ⟨by decide, rfl, rfl⟩

end Lha
