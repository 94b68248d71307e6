import Verif.Proof.Trace
import Verif.Props.C01
/-!
# C32: an update of an archive that is interrupted leaves the old archive or the new one
-/

namespace Lha

open Spec

variable (lost : List Nat → List Nat) (tmp : List Nat) (backup sfx : Bool) (f : Fmt) (tab : Arr) (e : Env) (up : List Nat → List Nat)
    (m level : Nat) (name : List Nat) (excl : List (List Nat)) (move : Bool) (items : List (List Nat × Option (List Nat)))
    (arch : Option (List Nat)) (p : Proc)

/-- The operations up to the last `rename`, and those after it. -/
theorem commandAddT_ops (hi : items ≠ []) :
    ∃ A, (∀ o ∈ A, Touches tmp o) ∧
      ((commandAddT lost tmp backup sfx f tab e up m level name excl move items arch p).ops = A ∧
        (∃ x, (commandAddT lost tmp backup sfx f tab e up m level name excl move items arch p).res = .error x) ∨
      ∃ (B C : List DiskOp) (st : AddSt), (B = [] ∨ B = [DiskOp.rename name backupName]) ∧ (∀ d : Disk, runOps A d tmp = some (st.new ++ [0])) ∧
        (commandAddT lost tmp backup sfx f tab e up m level name excl move items arch p).ops = A ++ (B ++ (.rename tmp (newName sfx name) :: C)) ∧
        ((newName sfx name = [] ∨ 0 ∈ newName sfx name) ∧ C = [] ∧
            (commandAddT lost tmp backup sfx f tab e up m level name excl move items arch p).res = .ok ⟨true, arch, [], st.proc⟩ ∨
          ¬ (newName sfx name = [] ∨ 0 ∈ newName sfx name) ∧ ∃ gone : List (List Nat), C = gone.map .remove ∧ name ∉ gone ∧
            (commandAddT lost tmp backup sfx f tab e up m level name excl move items arch p).res = .ok ⟨false, some (st.new ++ [0]), gone, st.proc⟩)) := by
  unfold commandAddT
  simp only [if_neg hi]
  rw [TG.ops_ok (a := ()) _ (TG.res_issue _), TG.res_bind, TG.res_issue, ok_bind, TG.ops_issue]
  have h1 := addItemsT_on lost tmp f tab e up m level name excl items ⟨[], arch, p⟩
  have m1 := addItemsT_makes lost tmp f tab e up m level name excl items ⟨[], arch, p⟩
  generalize addItemsT lost tmp f tab e up m level name excl items ⟨[], arch, p⟩ = X at h1 m1
  have hcr : ∀ o ∈ [DiskOp.create tmp], Touches tmp o := by
    intro o ho
    simp only [List.mem_cons, List.not_mem_nil, or_false] at ho
    rw [ho]
    exact rfl
  cases hX : X.res with
  | error x =>
    refine ⟨[.create tmp] ++ X.ops, ?_, Or.inl ⟨?_, x, ?_⟩⟩
    · intro o ho
      rcases List.mem_append.1 ho with ho | ho
      · exact hcr o ho
      · exact h1 o ho
    · rw [TG.ops_error _ hX]
    · rw [TG.res_bind, hX]; rfl
  | ok st =>
    rw [TG.ops_ok _ hX, TG.res_bind, hX, ok_bind]
    have h2 := oldOneT_on lost tmp f tab st
    have m2 := oldOneT_makes lost tmp f tab st
    generalize oldOneT lost tmp f tab st = Y at h2 m2
    cases hY : Y.res with
    | error y =>
      refine ⟨[.create tmp] ++ (X.ops ++ Y.ops), ?_, Or.inl ⟨?_, y, ?_⟩⟩
      · intro o ho
        rcases List.mem_append.1 ho with ho | ho
        · exact hcr o ho
        · rcases List.mem_append.1 ho with ho | ho
          · exact h1 o ho
          · exact h2 o ho
      · rw [TG.ops_error _ hY]
      · rw [TG.res_bind, hY]; rfl
    | ok s2 =>
      rw [TG.ops_ok _ hY, TG.res_bind, hY, ok_bind, TG.ops_ok (a := ()) _ (TG.res_issue _), TG.res_bind, TG.res_issue, ok_bind, TG.ops_issue]
      refine ⟨[.create tmp] ++ (X.ops ++ (Y.ops ++ [.write tmp [0]])), ?_, Or.inr ?_⟩
      · intro o ho
        rcases List.mem_append.1 ho with ho | ho
        · exact hcr o ho
        · rcases List.mem_append.1 ho with ho | ho
          · exact h1 o ho
          · rcases List.mem_append.1 ho with ho | ho
            · exact h2 o ho
            · simp only [List.mem_cons, List.not_mem_nil, or_false] at ho
              rw [ho]
              exact rfl
      · have hB : ∃ B, (B = [] ∨ B = [DiskOp.rename name backupName]) ∧
            (backupT backup arch name).ops = B ∧
            (backupT backup arch name).res = .ok () := by
          unfold backupT
          split
          · exact ⟨_, Or.inr rfl, rfl, rfl⟩
          · exact ⟨_, Or.inl rfl, rfl, rfl⟩
        obtain ⟨B, b1, b2, b3⟩ := hB
        have hrun : ∀ d : Disk, runOps ([DiskOp.create tmp] ++ (X.ops ++ (Y.ops ++ [.write tmp [0]]))) d tmp = some (s2.new ++ [0]) := by
          intro d
          rw [runOps_append, runOps_append, runOps_append]
          have c0 : runOps [DiskOp.create tmp] d tmp = some [] := by simp [runOps, DiskOp.apply, Disk.set]
          have c1 := m2 _ (m1 _ c0 st hX) s2 hY
          exact TG.Makes.write (bs := [0]) _ c1 () rfl
        generalize (backupT backup arch name) = W at b2 b3
        rw [TG.ops_ok _ b3, TG.res_bind, b3, ok_bind, b2, TG.ops_ok (a := ()) _ (TG.res_issue _), TG.res_bind, TG.res_issue, ok_bind, TG.ops_issue]
        by_cases hn : newName sfx name = [] ∨ 0 ∈ newName sfx name
        · refine ⟨B, [], s2, b1, hrun, ?_, Or.inl ⟨hn, rfl, ?_⟩⟩
          · rw [if_pos hn, TG.ops_lift]
            simp only [List.append_assoc, List.cons_append, List.nil_append]
          · rw [if_pos hn, TG.res_lift]
        · have hg : name ∉ (if move then (items.filter (fun x => x.1 ≠ name)).map Prod.fst else []) := by
            split
            · intro hmem
              obtain ⟨x, hx, rfl⟩ := List.mem_map.1 hmem
              simp at hx
            · simp
          refine ⟨B, _, s2, b1, hrun, ?_, Or.inr ⟨hn, _, rfl, hg, ?_⟩⟩
          · rw [if_neg hn]
            rw [TG.ops_ok (a := ()) _ (removeT_res _), removeT_ops, TG.ops_lift]
            simp only [List.append_assoc, List.cons_append, List.nil_append, List.append_nil]
          · rw [if_neg hn]
            rw [TG.res_bind, removeT_res, ok_bind, TG.res_lift]

/-- The renaming of the old archive to the backup name never happens. -/
theorem backup_noop (d : Disk) : DiskOp.apply (.rename name backupName) d = d := by
  have : 0 ∈ backupName := List.mem_replicate.2 ⟨by decide, rfl⟩
  simp only [DiskOp.apply]
  cases d name with
  | none => rfl
  | some c => exact if_pos (Or.inr this)

theorem crash_backup {B : List DiskOp} (hB : B = [] ∨ B = [DiskOp.rename name backupName]) {d d' : Disk} (h : Crash B d d') : d' = d := by
  rcases hB with rfl | rfl
  · exact h.nil
  · rcases h.single with h | h | h
    · exact h
    · rcases h with h | h
      · exact h
      · rw [h, backup_noop]
    · rw [h, backup_noop]

theorem run_backup {B : List DiskOp} (hB : B = [] ∨ B = [DiskOp.rename name backupName]) (d : Disk) : runOps B d = d := by
  rcases hB with rfl | rfl
  · rfl
  · exact backup_noop name d

theorem remove_other {name : List Nat} (gone : List (List Nat)) (hg : name ∉ gone) : ∀ d : Disk, runOps (gone.map .remove) d name = d name := by
  induction gone with
  | nil => intro d; rfl
  | cons n gone ih =>
    intro d
    show runOps (gone.map .remove) (DiskOp.apply (.remove n) d) name = d name
    rw [ih (fun h => hg (List.mem_cons_of_mem _ h))]
    have : name ≠ n := fun h => hg (by rw [h]; exact List.mem_cons_self)
    simp [DiskOp.apply, Disk.set, this]

theorem crash_remove {name : List Nat} {gone : List (List Nat)} (hg : name ∉ gone) {d d' : Disk} (h : Crash (gone.map .remove) d d') :
    d' name = d name := by
  obtain ⟨pre, post, e1, h⟩ := h
  have key : ∀ l : List (List Nat), (∀ x ∈ l, x ∈ gone) → runOps (l.map .remove) d name = d name := fun l hl =>
    remove_other l (fun hx => hg (hl _ hx)) d
  obtain ⟨a, b, e2, e3, e4⟩ := List.map_eq_append_iff.1 e1
  have hp : runOps pre d name = d name := by
    rw [← e3]
    exact key a (fun x hx => by rw [e2]; exact List.mem_append_left _ hx)
  rcases h with rfl | ⟨o, post', e5, ht⟩
  · exact hp
  · rw [e5] at e4
    obtain ⟨n, b', e6, e7, _⟩ := List.map_eq_cons_iff.1 e4
    rw [← e7] at ht
    have hn : name ≠ n := fun h => hg (by rw [e2, e6, h]; simp)
    rcases ht with rfl | rfl
    · exact hp
    · simp only [DiskOp.apply, Disk.set, if_neg hn]
      exact hp

/-- **C32.** In whatever state the process leaves the disk if it dies (or panics) while `CommandAdd` is running, the archive holds what it held
before, or what it holds after a `CommandAdd` that runs to its end.  `tmp`: the name of the temporary file, a new one.  Any options (moving, backup, exclusion), files,
old contents; also if the old archive cannot be parsed (`lost`, see the model).  What a dying process leaves is described in `Spec/Disk`. -/
theorem C32 (htmp : tmp ≠ name) (d : Disk) (hd : d name = arch) (d' : Disk)
    (hc : Crash (commandAddT lost tmp backup sfx f tab e up m level name excl move items arch p).ops d d') :
    d' name = arch ∨ ∃ c, (commandAddT lost tmp backup sfx f tab e up m level name excl move items arch p).res = .ok c ∧ d' name = c.archive := by
  by_cases hi : items = []
  · left
    subst hi
    have : (commandAddT lost tmp backup sfx f tab e up m level name excl move [] arch p).ops = [] := rfl
    rw [this] at hc
    rw [hc.nil, hd]
  obtain ⟨A, hA, ⟨h1, _⟩ | ⟨B, C, st, hB, hrun, h1, h2⟩⟩ := commandAddT_ops lost tmp backup sfx f tab e up m level name excl move items arch p hi
  · rw [h1] at hc
    left
    rw [touches_crash (Ne.symm htmp) hA hc, hd]
  · rw [h1] at hc
    have hAn : runOps A d name = arch := by rw [touches_run (Ne.symm htmp) A hA, hd]
    rcases hc.append with hc | hc
    · left
      rw [touches_crash (Ne.symm htmp) hA hc, hd]
    rcases hc.append with hc | hc
    · left
      rw [crash_backup name hB hc, hAn]
    rw [run_backup name hB] at hc
    have hc' : Crash ([.rename tmp (newName sfx name)] ++ C) (runOps A d) d' := hc
    rcases h2 with ⟨hn, rfl, _⟩ | ⟨hn, gone, rfl, hg, hr⟩
    · left
      have hno : DiskOp.apply (.rename tmp (newName sfx name)) (runOps A d) = runOps A d := by
        simp only [DiskOp.apply]
        rw [hrun d]
        exact if_pos hn
      rw [List.append_nil] at hc'
      rcases hc'.single with h | h | h
      · rw [h, hAn]
      · rcases h with h | h
        · rw [h, hAn]
        · rw [h, hno, hAn]
      · rw [h, hno, hAn]
    · have hap : DiskOp.apply (.rename tmp (newName sfx name)) (runOps A d) =
          ((runOps A d).set tmp none).set (newName sfx name) (some (st.new ++ [0])) := by
        simp only [DiskOp.apply]
        rw [hrun d]
        exact if_neg hn
      have hname : DiskOp.apply (.rename tmp (newName sfx name)) (runOps A d) name = arch ∨
          DiskOp.apply (.rename tmp (newName sfx name)) (runOps A d) name = some (st.new ++ [0]) := by
        rw [hap]
        by_cases g : name = newName sfx name
        · right
          simp only [Disk.set, if_pos g]
        · left
          simp only [Disk.set, if_neg g, if_neg (Ne.symm htmp)]
          exact hAn
      have fin : d' name = arch ∨ d' name = some (st.new ++ [0]) := by
        rcases hc'.append with h | h
        · rcases h.single with h | h | h
          · left; rw [h, hAn]
          · rcases h with h | h
            · left; rw [h, hAn]
            · rw [h]; exact hname
          · rw [h]; exact hname
        · rw [crash_remove hg h]
          exact hname
      rcases fin with h | h
      · exact Or.inl h
      · exact Or.inr ⟨_, hr, h⟩

/-- The operations are those of the call: carried out to the end (archive name not ending in .com or .exe, valid) they leave the archive the call
reports, with any backup option. -/
theorem C32_complete (hn : name ≠ [] ∧ 0 ∉ name) (hi : items ≠ []) (d : Disk) (c : CallOut)
    (hc : (commandAddT lost tmp backup false f tab e up m level name excl move items arch p).res = .ok c) :
    c.err = false ∧ runOps (commandAddT lost tmp backup false f tab e up m level name excl move items arch p).ops d name = c.archive := by
  obtain ⟨A, hA, ⟨_, x, h1⟩ | ⟨B, C, st, hB, hrun, h1, h2⟩⟩ := commandAddT_ops lost tmp backup false f tab e up m level name excl move items arch p hi
  · rw [h1] at hc; cases hc
  · have hnn : newName false name = name := rfl
    rw [hnn] at h1 h2
    rcases h2 with ⟨h, _⟩ | ⟨hn', gone, rfl, hg, hr⟩
    · rcases h with h | h
      · exact absurd h hn.1
      · exact absurd h hn.2
    · rw [hr] at hc
      cases hc
      refine ⟨rfl, ?_⟩
      rw [h1, runOps_append, runOps_append, run_backup name hB]
      show runOps (gone.map .remove) (DiskOp.apply (.rename tmp name) (runOps A d)) name = _
      rw [remove_other gone hg]
      simp only [DiskOp.apply]
      rw [hrun d]
      simp only [if_neg hn', Disk.set, if_pos]

/-- Without the operations it is `commandAdd`, the model the other properties are about. -/
theorem C32_model (hn : name ≠ [] ∧ 0 ∉ name) (c : CallOut)
    (h : commandAdd f tab e up m level name excl move items arch p = .ok (some c)) :
    (commandAddT lost tmp backup false f tab e up m level name excl move items arch p).res = .ok c := by
  unfold commandAdd at h
  unfold commandAddT
  split at h
  · rename_i hi
    cases h
    rw [if_pos hi]
    rfl
  · rename_i hi
    simp only [] at h
    obtain ⟨x, h1, h2⟩ := bind_ok h
    cases x with
    | none => cases h2
    | some st =>
      simp only [] at h2
      obtain ⟨y, h3, h4⟩ := bind_ok h2
      cases y with
      | none => cases h4
      | some s2 =>
        simp only [] at h4
        have hnn : newName false name = name := rfl
        rw [if_neg hi, TG.res_bind, TG.res_issue, ok_bind, TG.res_bind, addItemsT_res lost tmp f tab e up m level name excl items _ _ h1, ok_bind,
          TG.res_bind, oldOneT_res lost tmp f tab h3, ok_bind, TG.res_bind, TG.res_issue, ok_bind, TG.res_bind]
        have hb : (backupT backup arch name).res = .ok () := by
          unfold backupT
          split <;> rfl
        rw [hb, ok_bind, TG.res_bind, TG.res_issue, ok_bind, hnn, if_neg (by
          rintro (h | h)
          · exact hn.1 h
          · exact hn.2 h)]
        simp only []
        rw [TG.res_bind, removeT_res, ok_bind, TG.res_lift]
        cases h4
        rfl

/-- Case covered: an existing archive of two bytes, one unreadable file to be added, backup wished, and a crash in the middle of the writing of the new
archive: the temporary file holds some bytes, the archive is the old one; after the whole run it holds the new one, which is empty. -/
example (f : Fmt) (tab : Arr) (e : Env) (p : Proc) (d : Disk) (hd : d [97] = some [0, 0]) :
    d [97] = some [0, 0] ∧
    Crash (commandAddT List.tail [116] true false f tab e id 5 0 [97] [] false [([98], none)] (some [0, 0]) p).ops d (d.set [116] (some [7, 7])) ∧
    (commandAddT List.tail [116] true false f tab e id 5 0 [97] [] false [([98], none)] (some [0, 0]) p).res = .ok ⟨false, some [0], [], p⟩ := by
  refine ⟨hd, ⟨[.create [116]], _, rfl, Or.inr ⟨.write [116] [0], _, rfl, ?_⟩⟩, rfl⟩
  intro n hn
  simp [runOps, DiskOp.apply, Disk.set, hn]

end Lha
