import Verif.Props.C01
/-!
# C33: moving files into an archive

False: the files to delete are collected before anything is added, and errors of adding a file are ignored.
-/

namespace Lha

open Spec

/-- The deleted files are all file arguments but the archive itself, whether they could be read or not. -/
theorem commandAdd_deleted {f : Fmt} {tab : Arr} {e : Env} {up : List Nat → List Nat} {m level : Nat} {name : List Nat}
    {excl : List (List Nat)} {move : Bool} {items : List (List Nat × Option (List Nat))} {arch : Option (List Nat)} {p : Proc} {c : CallOut}
    (h : commandAdd f tab e up m level name excl move items arch p = .ok (some c)) :
    c.deleted = if move then (items.filter (fun x => x.1 ≠ name)).map Prod.fst else [] := by
  unfold commandAdd at h
  split at h
  · rename_i hi
    cases h
    subst hi
    simp
  · simp only [] at h
    obtain ⟨x, _, h⟩ := bind_ok h
    split at h
    · cases h
    · obtain ⟨y, _, h⟩ := bind_ok h
      split at h
      · cases h
      · cases h; rfl

/-- **C33 is false**: a file that cannot be opened is deleted; the archive stays empty; no error is returned. -/
theorem C33_false (f : Fmt) (tab : Arr) (e : Env) (up : List Nat → List Nat) (m level : Nat) (name file : List Nat) (hn : file ≠ name)
    (excl : List (List Nat)) (p : Proc) :
    commandAdd f tab e up m level name excl true [(file, none)] none p = .ok (some ⟨false, some [0], [file], p⟩) := by
  unfold commandAdd
  rw [if_neg (by simp)]
  simp only []
  unfold addItems
  rw [if_neg hn]
  simp only []
  unfold addItems
  rw [ok_bind]
  simp [copyTail, hn]

/-- **C33 is false** in another way: an excluded file is deleted, too (`hx`: its base name is the only pattern). -/
theorem C33_false_excluded (f : Fmt) (tab : Arr) (e : Env) (up : List Nat → List Nat) (m level : Nat) (name file body x : List Nat) (hn : file ≠ name)
    (hx : up x = up (baseName file)) (p : Proc) :
    commandAdd f tab e up m level name [x] true [(file, some body)] none p = .ok (some ⟨false, some [0], [file], p⟩) := by
  have ht : timesAdded up [x] file = 0 := by simp [timesAdded, hx]
  unfold commandAdd
  rw [if_neg (by simp)]
  simp only []
  unfold addItems
  rw [if_neg hn]
  simp only [ht]
  unfold appendTimes
  rw [ok_bind]
  simp only []
  unfold addItems
  rw [ok_bind]
  simp [copyTail, hn]

/-- What holds, in general: without the option nothing is deleted; with it only files named in the call, never the archive. -/
theorem C33_named_partial (f : Fmt) (tab : Arr) (e : Env) (up : List Nat → List Nat) (m level : Nat) (name : List Nat)
    (excl : List (List Nat)) (move : Bool) (items : List (List Nat × Option (List Nat))) (arch : Option (List Nat)) (p : Proc) (c : CallOut)
    (h : commandAdd f tab e up m level name excl move items arch p = .ok (some c)) :
    (move = false → c.deleted = []) ∧ (∀ x ∈ c.deleted, x ∈ items.map Prod.fst) ∧ name ∉ c.deleted := by
  rw [commandAdd_deleted h]
  cases move with
  | false => simp
  | true =>
    simp only [if_true]
    refine ⟨(by intro h; cases h), ?_, ?_⟩
    · intro x hx
      rw [List.mem_map] at hx ⊢
      obtain ⟨y, hy, rfl⟩ := hx
      exact ⟨y, (List.mem_filter.mp hy).1, rfl⟩
    · intro hx
      rw [List.mem_map] at hx
      obtain ⟨y, hy, he⟩ := hx
      have := (List.mem_filter.mp hy).2
      simp [he] at this

/-- What `commandAdd` does for one readable file and no exclusions is what `compressBytes` does, plus the deletion. -/
theorem commandAdd_one (f : Fmt) (tab : Arr) (e : Env) (up : List Nat → List Nat) (m level : Nat) (name file body : List Nat) (hn : file ≠ name)
    (p : Proc) (c : CallOut) (h : compressBytes f tab e m level name file body none p = .ok (some c)) :
    commandAdd f tab e up m level name [] true [(file, some body)] none p = .ok (some { c with deleted := [file] }) := by
  have key : ∀ up : List Nat → List Nat, addItems f tab e up m level name [] [(file, some body)] ⟨[], none, p⟩ =
      addItems f tab e id m level name [] [(file, some body)] ⟨[], none, p⟩ := by
    intro up
    unfold addItems
    simp only [timesAdded, if_true]
    unfold addItems
    rfl
  unfold compressBytes commandAdd at h
  simp only [] at h
  rw [if_neg (by simp)] at h
  unfold commandAdd
  rw [if_neg (by simp)]
  simp only [key up]
  obtain ⟨x, h1, h⟩ := bind_ok h
  rw [h1, ok_bind]
  cases x with
  | none => cases h
  | some st =>
    simp only [] at h ⊢
    obtain ⟨y, h2, h⟩ := bind_ok h
    rw [h2, ok_bind]
    cases y with
    | none => cases h
    | some st =>
      cases h
      simp [hn]

/-- What holds (full statement: for every list of files, readable or not): moving one readable file that packs (hypotheses of C01) deletes it, and
its content can be got back from the archive. -/
theorem C33_move_one_partial (f : Fmt) (oth : Oth) (tab : Arr) (ht : makeCrcTable = .ok tab) (e : Env) (hperm : e.perm < 512)
    (up : List Nat → List Nat) (m : Nat) (hm : m = 5 ∨ m = 6 ∨ m = 7) (archive name body : List Nat) (hname : name ≠ archive)
    (p : Proc) (hp : ∀ g, geoOf m = some g → ProcOk g p) (hD : IsBytes body) (hlen : body.length < 2 ^ 32)
    (hfirst : body.getD 0 0 &&& 32 = 0) (hpack : body ≠ [] → Packs m tab p body) (h7 : m = 7 → body.length < 65536)
    (hf : Hf) (hok : HfOk hf) :
    ∃ c a g hf1 hf2, commandAdd f tab e up m 0 archive [] true [(name, some body)] none p = .ok (some c) ∧ c.deleted = [name] ∧
      c.archive = some a ∧ headers f oth tab Opts.default hf (some a) = .ok ⟨false, [g], hf1⟩ ∧
      decompresBytes f oth tab false g.name hf1 (some a) = .ok ⟨false, body, hf2⟩ := by
  obtain ⟨c, a, g, hf1, h1, h2, h3, h4, k1, h5, _⟩ := C01_round_trip_partial f oth tab ht e hperm m hm archive name body hname p hp hD hlen hfirst
    hpack h7 hf hok
  obtain ⟨hf2, _, h5⟩ := h5 hf1 k1
  exact ⟨_, a, g, hf1, hf2, commandAdd_one f tab e up m 0 archive name body hname p c h1, rfl, h3, h4, h5⟩

/-- A concrete case: `a` unreadable, archive `x`. -/
example (tab : Arr) : commandAdd ⟨false, false⟩ tab ⟨0, 0o644, 0, 0, fun _ => ⟨1970, 1, 1, 0, 0, 0⟩⟩ id 5 0 [120] [] true [([97], none)] none Proc.fresh =
    .ok (some ⟨false, some [0], [[97]], Proc.fresh⟩) := C33_false _ _ _ _ _ _ _ _ (by decide) _ _

end Lha
