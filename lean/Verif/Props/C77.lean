import Verif.Props.C32
import Verif.Proof.Append
/-!
# C77: directories and symbolic links can be archived

`CommandAdd` takes names of files, directories and symbolic links (the format has entries for each of them).  The property: an argument that is a
directory or a symbolic link is archived like a file, and the call comes to its end.
-/

namespace Lha

open Spec

variable (lost : List Nat → List Nat × Hdr) (tmp : List Nat) (sfx : Bool) (f : Fmt) (tab : Arr) (e : Env) (up : List Nat → List Nat)
    (m level : Nat) (o : AddOpts) (name : List Nat) (excl : List (List Nat)) (items : List (List Nat × Option Src)) (arch : Option (List Nat)) (p : Proc)

/-- **C77 is false**: with a directory or a symbolic link among the arguments (not excluded, not the archive) `CommandAdd` never returns, whatever the options,
the other arguments and the old archive: it panics. -/
theorem C77_false (n : List Nat) (src : Src) (hsrc : (∃ t, src = .dir t) ∨ ∃ t target, src = .link t target) (hi : (n, some src) ∈ items) (hn : n ≠ name)
    (ht : 0 < timesAdded up excl n) (c : CallOut) : (commandAddO lost tmp sfx f tab e up m level o name excl items arch p).res ≠ .ok c := by
  unfold commandAddO
  rw [if_neg (by rintro rfl; cases hi)]
  have hs : src.noReader o := by
    rcases hsrc with ⟨t, rfl⟩ | ⟨t, g, rfl⟩ <;> trivial
  intro h
  simp only [] at h
  split at h <;>
  · rw [TG.res_bind] at h
    obtain ⟨_, _, h⟩ := bind_ok h
    rw [TG.res_bind] at h
    obtain ⟨st, h1, _⟩ := bind_ok h
    exact addItemsO_fails lost tmp f tab e hi hn ht hs m level _ _ h1

/-- **C77 (partial).** Full statement: the call ends, and the new archive has an entry for the directory or link.  What is true: whatever makes a call (without `Noexec`) panic,
all files but the temporary file, the old archive among them, are unchanged, also if the process dies during the call. -/
theorem C77_partial (ho : o.noexec = false) (hr : ∀ c, (commandAddO lost tmp sfx f tab e up m level o name excl items arch p).res ≠ .ok c) (d d' : Disk)
    (hc : Crash (commandAddO lost tmp sfx f tab e up m level o name excl items arch p).ops d d') (k : List Nat) (hk : k ≠ tmp) : d' k = d k := by
  by_cases hi : items = []
  · have : ∃ A : List DiskOp, (∀ x ∈ A, Touches tmp x) ∧ (commandAddO lost tmp sfx f tab e up m level o name excl items arch p).ops = A := by
      unfold commandAddO
      rw [if_pos hi]
      unfold updateAllO
      split
      · cases arch with
        | none => exact ⟨[], by simp, rfl⟩
        | some a =>
          refine ⟨_, ?_, rfl⟩
          simp only [ho, Bool.false_eq_true, if_false]
          refine TG.On.bind ?_ fun _ => (TG.On.lift _).bind fun _ => TG.On.lift _
          exact TG.On.one (n := tmp) (o := .create tmp) rfl
      · exact ⟨[], by simp, rfl⟩
    obtain ⟨A, hA, h1⟩ := this
    rw [h1] at hc
    exact touches_crash hk hA hc
  · obtain ⟨A, hA, ⟨h1, _⟩ | ⟨B, C, st, hB, hrun, h1, h2⟩⟩ := commandAddO_ops lost tmp f tab e sfx up m level o name excl items arch p ho hi
    · rw [h1] at hc
      exact touches_crash hk hA hc
    · rcases h2 with ⟨_, _, h⟩ | ⟨_, _, _, _, h⟩
      · exact absurd h (hr _)
      · exact absurd h (hr _)

theorem dirMode_facts (perm : Nat) (hp : perm < 512) : isSymlinkMode (((perm + 33000) % 65536 + 40000) % 65536) = false := by
  have key : ∀ x : Fin 512, isSymlinkMode (((x.val + 33000) % 65536 + 40000) % 65536) = false := by decide +kernel
  exact key ⟨perm, hp⟩

/-- **C77, what is left behind.**  A lone directory or link (header level 0, no old archive): before the panic a header has been written to the temporary file, with
the method -lhd- and the sizes 0, and nothing else; the temporary file is not removed. -/
theorem C77_leftover (hperm : e.perm < 512) (ho : o.noexec = false) (n : List Nat) (src : Src)
    (hsrc : (∃ t, src = .dir t) ∨ ∃ t target, src = .link t target) (hn : n ≠ name) :
    ∃ w, (commandAddO lost tmp sfx f tab e up m 0 o name [] [(n, some src)] none p).ops = [.create tmp, .write tmp w] ∧
      (w.drop 2).take 5 = [45, 108, 104, 100, 45] ∧ (w.drop 7).take 8 = [0, 0, 0, 0, 0, 0, 0, 0] := by
  have key : ∃ h : Hdr, srcHeader e 0 n src = h ∧ h.level = 0 ∧ isSymlinkMode h.mode = false ∧ h.method = lhd ∧ h.packedSize = 0 ∧
      h.originalSize = 0 ∧ src.body = [] := by
    rcases hsrc with ⟨t, rfl⟩ | ⟨t, g, rfl⟩
    · exact ⟨_, rfl, rfl, dirMode_facts e.perm hperm, rfl, rfl, rfl, rfl⟩
    · refine ⟨_, rfl, rfl, ?_, rfl, rfl, rfl, rfl⟩
      show isSymlinkMode ((e.perm + 33000) % 65536) = false
      rw [(mode_facts e.perm hperm).1]
      exact (mode_facts e.perm hperm).2.2.2
  obtain ⟨h, h1, h2, h3, h4, h5, h6, h7⟩ := key
  have hw := writeHeader_level0 f tab (e.gst h.stamp) h h2 h3
  refine ⟨writeLevel0 f (e.gst h.stamp) h ((h.name ++ [0]).map (wByte f)), ?_, ?_, ?_⟩
  · have hgo : ∀ st : AddSt, st.old = none → (do
        let (st, err, ah) ← oldLoopO lost tmp f tab o (oldFuel st) newHdr st
        decideO tmp f tab e m o (srcHeader e 0 n src) src.body st err ah : TG AddSt) =
        ([.write tmp (writeLevel0 f (e.gst h.stamp) h ((h.name ++ [0]).map (wByte f)))],
          .ok { st with new := st.new ++ writeLevel0 f (e.gst h.stamp) h ((h.name ++ [0]).map (wByte f)) }) := by
      rintro ⟨nw, od, pr⟩ hst
      subst hst
      show decideO tmp f tab e m o (srcHeader e 0 n src) src.body ⟨nw, none, pr⟩ false newHdr = _
      unfold decideO
      rw [if_pos (Or.inl rfl), ho, h1]
      simp only [Bool.false_eq_true, if_false]
      unfold addOneT
      rw [hw]
      simp only [h6, if_true]
      rfl
    have happ : appendItO lost tmp f tab e m 0 o n src ⟨[], none, p⟩ =
        ([.write tmp (writeLevel0 f (e.gst h.stamp) h ((h.name ++ [0]).map (wByte f)))], panic) := by
      unfold appendItO
      simp only [ho, Bool.false_eq_true, if_false]
      have := hgo ⟨[], none, p⟩ rfl
      rcases hsrc with ⟨t, rfl⟩ | ⟨t, g, rfl⟩ <;>
      · simp only [] at this ⊢
        rw [this]
        rfl
    have hadd : addItemsO lost tmp f tab e up m 0 o name [] [(n, some src)] ⟨[], none, p⟩ =
        ([.write tmp (writeLevel0 f (e.gst h.stamp) h ((h.name ++ [0]).map (wByte f)))], panic) := by
      unfold addItemsO
      rw [if_neg hn]
      show (appendTimesO lost tmp f tab e m 0 o n src 1 ⟨[], none, p⟩ >>= _) = _
      unfold appendTimesO
      rw [happ]
      rfl
    unfold commandAddO
    rw [if_neg (by simp), hadd]
    simp only [ho, Bool.false_eq_true, if_false]
    rfl
  · unfold writeLevel0
    rw [h4]
    rfl
  · unfold writeLevel0
    rw [h4, h5, h6]
    rfl

/-- Case covered by `C77_false`: the directory `b`, added to the archive `a`. -/
example : (([98], some (.dir 0)) : List Nat × Option Src) ∈ [([98], some (.dir 0))] ∧ ([98] : List Nat) ≠ [97] ∧ 0 < timesAdded id [] [98] :=
  ⟨List.mem_singleton.2 rfl, by decide, by decide⟩

/-- Case covered by `C77_partial`: the same call. -/
example (tab : Arr) (e : Env) (p : Proc) (c : CallOut) :
    (commandAddO (fun l => (l, newHdr)) [116] false ⟨false, false⟩ tab e id 5 0 ⟨false, false, false, false, false⟩ [97] [] [([98], some (.dir 0))] none p).res ≠ .ok c :=
  C77_false _ _ _ _ _ _ _ _ _ _ _ _ _ _ _ [98] (.dir 0) (Or.inl ⟨0, rfl⟩) (List.mem_singleton.2 rfl) (by decide) (by decide) c

/-- Case covered by `C77_leftover`. -/
example : (⟨0, 0o755, 0, 0, fun _ => ⟨80, 1, 1, 0, 0, 0⟩⟩ : Env).perm < 512 ∧ (AddOpts.noexec ⟨false, false, false, false, false⟩) = false ∧ ([98] : List Nat) ≠ [97] :=
  ⟨by decide, rfl, by decide⟩

end Lha
