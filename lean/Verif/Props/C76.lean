import Verif.Model.Dry
import Verif.Proof.Append
import Verif.Props.C32
/-!
# C76: `Noexec` changes nothing

`Noexec` is documented as "do not execute": adding and extracting show what they would do.  The property: whatever the other options, files and archives, nothing
on disk is changed, and the call comes to its end.
-/

namespace Lha

open Spec

variable (lost : List Nat → List Nat × Hdr) (tmp : List Nat) (sfx : Bool) (f : Fmt) (tab : Arr) (e : Env) (up : List Nat → List Nat)
    (m level : Nat)

/-! ### Adding -/

/-- **C76 is false**: with `Noexec`, `DeleteAfterAppend` and an exclusion list, `CommandAdd` deletes the excluded file and reports success; no archive is
made. -/
theorem C76_false (o : AddOpts) (ho : o.noexec = true) (hm : o.move = true) (name n x : List Nat) (hn : n ≠ name) (hx : up x = up (baseName n))
    (src : Option Src) (p : Proc) (d : Disk) :
    let c := commandAddO lost tmp sfx f tab e up m level o name [x] [(n, src)] none p
    c.res = .ok ⟨false, none, [n], p⟩ ∧ runOps c.ops d n = none := by
  have h0 : timesAdded up [x] n = 0 := by
    unfold timesAdded
    simp [hx]
  have h1 : addItemsO lost tmp f tab e up m level o name [x] [(n, src)] ⟨[], none, p⟩ = TG.lift (.ok ⟨[], none, p⟩) := by
    cases src with
    | none => unfold addItemsO; rw [if_neg hn]; rfl
    | some s =>
      unfold addItemsO
      rw [if_neg hn]
      simp only []
      rw [h0]
      rfl
  have hg : ([(n, src)].filter (fun x => x.1 ≠ name)).map Prod.fst = [n] := by simp [hn]
  intro c
  have hc : c = (do
      backupT o.backup none name
      removeT [n]
      TG.lift (.ok ⟨false, none, [n], p⟩)) := by
    show commandAddO lost tmp sfx f tab e up m level o name [x] [(n, src)] none p = _
    unfold commandAddO
    rw [if_neg (by simp), if_pos ho, h1]
    simp only [if_pos ho, if_pos hm, hg]
    rfl
  have hb : backupT o.backup none name = TG.lift (.ok ()) := by
    unfold backupT
    simp
  rw [hc, hb]
  refine ⟨rfl, ?_⟩
  show DiskOp.apply (.remove n) d n = none
  simp [DiskOp.apply, Disk.set]

/-- … and it never comes to its end if one of the files given exists (and is not excluded): the result is a panic. -/
theorem C76_panics (o : AddOpts) (ho : o.noexec = true) (name : List Nat) (excl : List (List Nat)) (items : List (List Nat × Option Src))
    (arch : Option (List Nat)) (p : Proc) (n : List Nat) (src : Src) (hi : (n, some src) ∈ items) (hn : n ≠ name) (ht : 0 < timesAdded up excl n) (c : CallOut) :
    (commandAddO lost tmp sfx f tab e up m level o name excl items arch p).res ≠ .ok c := by
  unfold commandAddO
  rw [if_neg (by rintro rfl; cases hi), if_pos ho]
  intro h
  rw [TG.res_bind] at h
  obtain ⟨_, _, h⟩ := bind_ok h
  rw [TG.res_bind] at h
  obtain ⟨st, h1, _⟩ := bind_ok h
  exact addItemsO_fails lost tmp f tab e hi hn ht (by cases src <;> simp [Src.noReader, ho]) m level _ _ h1

/-- What `CommandAdd` does to the disk with `Noexec`: the (impossible) renaming to the backup name, and removals. -/
theorem noexec_ops (o : AddOpts) (ho : o.noexec = true) (name : List Nat) (excl : List (List Nat)) (items : List (List Nat × Option Src))
    (arch : Option (List Nat)) (p : Proc) : ∃ (B : List DiskOp) (gone : List (List Nat)), (B = [] ∨ B = [DiskOp.rename name backupName]) ∧
      (commandAddO lost tmp sfx f tab e up m level o name excl items arch p).ops = B ++ gone.map .remove ∧
      ∀ n ∈ gone, o.move = true ∧ n ≠ name ∧ ∃ s, (n, s) ∈ items := by
  unfold commandAddO
  split
  · refine ⟨[], [], Or.inl rfl, ?_, by simp⟩
    unfold updateAllO
    split
    · cases arch with
      | none => rfl
      | some a =>
        simp only [if_pos ho]
        exact (TG.Silent.lift _).bind fun _ => (TG.Silent.lift _).bind fun _ => TG.Silent.lift _
    · rfl
  · simp only [if_pos ho]
    rw [TG.ops_ok (a := ()) _ (TG.res_lift _), TG.ops_lift, List.nil_append]
    have h1 := addItemsO_silent lost tmp f tab e ho up m level name excl items ⟨[], arch, p⟩
    generalize addItemsO lost tmp f tab e up m level o name excl items ⟨[], arch, p⟩ = X at h1
    cases hX : X.res with
    | error x => exact ⟨[], [], Or.inl rfl, by rw [TG.ops_error _ hX, h1]; rfl, by simp⟩
    | ok st =>
      rw [TG.ops_ok _ hX, h1, List.nil_append]
      have h2 := tailLoopO_silent lost tmp f tab ho (oldFuel st) newHdr st
      generalize tailLoopO lost tmp f tab o (oldFuel st) newHdr st = Y at h2
      cases hY : Y.res with
      | error x => exact ⟨[], [], Or.inl rfl, by rw [TG.ops_error _ hY, h2]; rfl, by simp⟩
      | ok st2 =>
        rw [TG.ops_ok _ hY, h2, List.nil_append]
        have hB : ∃ B, (B = [] ∨ B = [DiskOp.rename name backupName]) ∧ (backupT o.backup arch name).ops = B ∧
            (backupT o.backup arch name).res = .ok () := by
          unfold backupT
          split
          · exact ⟨_, Or.inr rfl, rfl, rfl⟩
          · exact ⟨_, Or.inl rfl, rfl, rfl⟩
        obtain ⟨B, b1, b2, b3⟩ := hB
        refine ⟨B, if o.move then (items.filter (fun x => x.1 ≠ name)).map Prod.fst else [], b1, ?_, ?_⟩
        · rw [TG.ops_ok (a := ()) _ b3, b2, TG.ops_ok (a := ()) _ (removeT_res _), removeT_ops, TG.ops_lift, List.append_nil]
        · intro n hn
          split at hn
          · rename_i hmv
            obtain ⟨x, hx, rfl⟩ := List.mem_map.1 hn
            obtain ⟨h1, h2⟩ := List.mem_filter.1 hx
            exact ⟨hmv, by simpa using h2, x.2, h1⟩
          · cases hn

/-- **C76, adding (partial).** Full statement: with `Noexec` no file is changed, and the call ends.  What is true: without `DeleteAfterAppend` no file is changed,
also if the call panics or the process dies during it; with it, only files given as arguments are removed, and the archive is not. -/
theorem C76_add_partial (o : AddOpts) (ho : o.noexec = true) (name : List Nat) (excl : List (List Nat)) (items : List (List Nat × Option Src))
    (arch : Option (List Nat)) (p : Proc) (d d' : Disk)
    (hc : Crash (commandAddO lost tmp sfx f tab e up m level o name excl items arch p).ops d d') :
    (o.move = false → d' = d) ∧ d' name = d name ∧ ∀ n, (∀ s, (n, s) ∉ items) → d' n = d n := by
  obtain ⟨B, gone, hB, h, hg⟩ := noexec_ops lost tmp sfx f tab e up m level o ho name excl items arch p
  rw [h] at hc
  have key : ∀ n, n ∉ gone → d' n = d n := by
    intro n hn
    rcases hc.append with hc | hc
    · rw [crash_backup name hB hc]
    · rw [crash_remove hn hc, run_backup name hB]
  refine ⟨fun hm => funext fun n => key n fun hn => ?_, key name fun hn => (hg _ hn).2.1 rfl, fun n hn => key n fun h => ?_⟩
  · have := (hg n hn).1
    rw [hm] at this
    cases this
  · obtain ⟨_, _, s, hs⟩ := hg n h
    exact hn s hs

/-! ### Extracting -/

/-- An archive with one empty entry `ab`, whose file type is not known (mode 0600 without a type), of time 99. -/
def oddArchive : List Nat := [36, 124, 45, 108, 104, 48, 45, 0, 0, 0, 0, 0, 0, 0, 0, 0, 0, 0, 0, 32, 0, 2, 97, 98, 0, 0, 85, 0, 99, 0, 0, 0, 128, 1, 0, 0, 0, 0]

/-- A directory with a file `ab`, of mode 0644 and time 5. -/
def oddDir : Sys := ⟨fun n => if n = [97, 98] then some (.file [1] ⟨0o644, 5, 0, 0⟩) else none, [], [], fun _ => true, ⟨0, 0, 0, 0⟩, false⟩

/-- Mode and time of the file `ab`. -/
def oddStat (s : Sys) : Option (Nat × Nat) :=
  match s.node [97, 98] with
  | some (.file _ m) => some (m.mode, m.mtime)
  | _ => none

/-- **C76 is false** for extracting, too: with `Noexec` and `Force`, `CommandExtract` changes the mode and the time of an existing file. -/
theorem C76_extract_false :
    oddStat oddDir = some (0o644, 5) ∧
    (commandExtractN ⟨false, false⟩ (Arr.mk' 0 0) ⟨false, true, [], []⟩ false Hf.fresh oddDir (some oddArchive)).map (fun r => (r.1, oddStat r.2.1)) =
      .ok (false, some (0o600, 99)) := by
  constructor
  · rfl
  · decide +kernel

/-- What a file-system object is, without its attributes. -/
def Node.bare : Node → Node
  | .file c _ => .file c ⟨0, 0, 0, 0⟩
  | .dir _ => .dir ⟨0, 0, 0, 0⟩
  | x => x

/-- The same names, kinds, contents and targets; no other file has been written. -/
def SameFiles (s s' : Sys) : Prop :=
  (∀ n, (s'.node n).map Node.bare = (s.node n).map Node.bare) ∧ s'.answers = s.answers ∧ ∀ w ∈ s'.outside, w ∈ s.outside ∨ ∃ n, w = .attr n

theorem SameFiles.refl (s : Sys) : SameFiles s s := ⟨fun _ => rfl, rfl, fun _ h => Or.inl h⟩

theorem SameFiles.trans {a b c : Sys} (h1 : SameFiles a b) (h2 : SameFiles b c) : SameFiles a c :=
  ⟨fun n => (h2.1 n).trans (h1.1 n), h2.2.1.trans h1.2.1, fun w hw => by
    rcases h2.2.2 w hw with h | h
    · exact h1.2.2 w h
    · exact Or.inr h⟩

theorem SameFiles.set {s : Sys} {n : List Nat} {x y : Node} (h : s.node n = some x) (hb : y.bare = x.bare) : SameFiles s (s.set n y) := by
  refine ⟨fun k => ?_, rfl, fun w hw => Or.inl hw⟩
  unfold Sys.set
  simp only []
  split
  · rename_i hk
    rw [hk, h]
    exact congrArg some hb
  · rfl

theorem lstat_is {s : Sys} {n : List Nat} {x : Node} (h : s.lstat n = .is x) : s.node n = some x := by
  unfold Sys.lstat at h
  split at h
  · cases h
  · split at h
    · cases h
    · split at h
      · cases h
      · rename_i hn
        rw [hn]
        cases h
        rfl

theorem adjustInfo_same (s : Sys) (n : List Nat) (h : Hdr) : SameFiles s (adjustInfo s n h) := by
  unfold adjustInfo
  simp only []
  split
  · exact SameFiles.refl s
  · exact SameFiles.refl s
  · rename_i hx; exact SameFiles.set (lstat_is hx) rfl
  · rename_i hx; exact SameFiles.set (lstat_is hx) rfl
  · refine ⟨fun _ => rfl, rfl, fun w hw => ?_⟩
    rcases List.mem_append.1 hw with hw | hw
    · exact Or.inl hw
    · exact Or.inr ⟨n, by simpa using hw⟩

theorem extractOneN_same {o : Opts} {s : Sys} {hf : Hf} {h : Hdr} {inp : List Nat} {r : Option OneOut × Sys} (hr : extractOneN o s hf h inp = .ok r) :
    SameFiles s r.2 ∧ (o.force = false → o.ignoreDir = false → r.2 = s) := by
  unfold extractOneN at hr
  obtain ⟨x, _, hr⟩ := bind_ok hr
  split at hr
  · cases hr; exact ⟨SameFiles.refl s, fun _ _ => rfl⟩
  · simp only [] at hr
    split at hr
    · cases hr; exact ⟨SameFiles.refl s, fun _ _ => rfl⟩
    · split at hr
      · split at hr <;> (cases hr; exact ⟨SameFiles.refl s, fun _ _ => rfl⟩)
      · split at hr
        · split at hr
          · rename_i hi
            cases hr
            refine ⟨?_, fun _ h => by rw [hi] at h; cases h⟩
            simp only []
            split
            · exact SameFiles.refl s
            · exact adjustInfo_same _ _ _
          · cases hr; exact ⟨SameFiles.refl s, fun _ _ => rfl⟩
        · split at hr
          · rename_i hi
            cases hr
            exact ⟨adjustInfo_same _ _ _, fun h => by rw [hi] at h; cases h⟩
          · cases hr; exact ⟨SameFiles.refl s, fun _ _ => rfl⟩

theorem extractLoopN_same {o : Opts} {need : List Nat → Bool} (n : Nat) : ∀ {h : Hdr} {hf : Hf} {s : Sys} {inp : List Nat} {r : Bool × Sys × Hf},
    extractLoopN f tab o need n h hf s inp = .ok r → SameFiles s r.2.1 ∧ (o.force = false → o.ignoreDir = false → r.2.1 = s) := by
  induction n with
  | zero => intro h hf s inp r hr; cases hr
  | succ n ih =>
    intro h hf s inp r hr
    unfold extractLoopN at hr
    obtain ⟨x, _, hr⟩ := bind_ok hr
    split at hr
    · cases hr; exact ⟨SameFiles.refl s, fun _ _ => rfl⟩
    · cases hr; exact ⟨SameFiles.refl s, fun _ _ => rfl⟩
    · cases hr; exact ⟨SameFiles.refl s, fun _ _ => rfl⟩
    · split at hr
      · obtain ⟨y, hy, hr⟩ := bind_ok hr
        have hs := extractOneN_same hy
        split at hr
        · cases hr; exact hs
        · have step : ∀ {r' : Bool × Sys × Hf} {s2 : Sys}, SameFiles s s2 ∧ (o.force = false → o.ignoreDir = false → s2 = s) →
              SameFiles s2 r'.2.1 ∧ (o.force = false → o.ignoreDir = false → r'.2.1 = s2) →
              SameFiles s r'.2.1 ∧ (o.force = false → o.ignoreDir = false → r'.2.1 = s) :=
            fun a b => ⟨a.1.trans b.1, fun h1 h2 => (b.2 h1 h2).trans (a.2 h1 h2)⟩
          simp only [] at hr
          split at hr
          · split at hr
            · cases hr; exact hs
            · exact step hs (ih hr)
          · exact step hs (ih hr)
      · exact ih hr

/-- **C76, extracting (partial).** Full statement: with `Noexec` nothing is changed.  What is true of `CommandExtract` and `Decompress` with every archive: no file,
directory or link is made, removed or given other contents, nothing is written elsewhere, and no answer is read; without `Force` and `IgnoreDirectory` nothing at all
is changed. -/
theorem C76_extract_partial (o : Opts) (hf : Hf) (s : Sys) (arch : Option (List Nat)) (r : Bool × Sys × Hf)
    (hr : commandExtractN f tab o sfx hf s arch = .ok r ∨ ∃ want, decompressN f tab o sfx want hf s arch = .ok r) :
    SameFiles s r.2.1 ∧ (o.force = false → o.ignoreDir = false → r.2.1 = s) := by
  rcases hr with hr | ⟨want, hr⟩
  · unfold commandExtractN at hr
    cases arch with
    | none => cases hr; exact ⟨SameFiles.refl s, fun _ _ => rfl⟩
    | some a =>
      simp only [] at hr
      split at hr
      · obtain ⟨a', _, hr⟩ := bind_ok hr
        exact extractLoopN_same f tab _ hr
      · obtain ⟨a', _, hr⟩ := bind_ok hr
        exact extractLoopN_same f tab _ hr
  · unfold decompressN at hr
    cases arch with
    | none => cases hr; exact ⟨SameFiles.refl s, fun _ _ => rfl⟩
    | some a =>
      simp only [] at hr
      split at hr
      · obtain ⟨a', _, hr⟩ := bind_ok hr
        exact extractLoopN_same f tab _ hr
      · obtain ⟨a', _, hr⟩ := bind_ok hr
        exact extractLoopN_same f tab _ hr

/-! ### Cases covered -/

/-- `C76_false`: the file `b` is excluded by the pattern `b`. -/
example : (⟨false, false, true, true, false⟩ : AddOpts).noexec = true ∧ ([98] : List Nat) ≠ [97] ∧ id [98] = id (baseName [98]) := by decide

/-- `C76_panics`: the file `b`, no exclusion list. -/
example : (([98], some (.file 0 [1])) : List Nat × Option Src) ∈ [([98], some (.file 0 [1]))] ∧ 0 < timesAdded id [] [98] :=
  ⟨List.mem_singleton.2 rfl, by decide⟩

/-- `C76_add_partial`: a call with nothing to add (`b` does not exist) and an old archive that ends at once; it comes to its end. -/
example (f : Fmt) (tab : Arr) (e : Env) (p : Proc) :
    (commandAddO (fun l => (l, newHdr)) [116] false f tab e id 5 0 ⟨false, false, true, false, true⟩ [97] [] [([98], none)] (some [0]) p).res =
      .ok ⟨false, some [0], [], p⟩ := rfl

/-- `C76_extract_partial`: the archive above without `Force`; an error is returned, and nothing is changed. -/
example : (commandExtractN ⟨false, false⟩ (Arr.mk' 0 0) ⟨false, false, [], []⟩ false Hf.fresh oddDir (some oddArchive)).map (fun r => (r.1, oddStat r.2.1)) =
    .ok (true, some (0o644, 5)) := by decide +kernel

end Lha
