import Verif.Model.Append
import Verif.Proof.Trace
import Verif.Proof.Copy
import Verif.Props.C16
/-!
# `CommandAdd` with its options: what is done to the disk
-/

namespace Lha

open Spec

variable (lost : List Nat → List Nat × Hdr) (tmp : List Nat) (f : Fmt) (tab : Arr) (e : Env) (o : AddOpts)

/-! ### Only the temporary file is written -/

theorem copyOldO_on (h : Hdr) (rest : List Nat) (st : AddSt) : (copyOldO tmp o h rest st).On tmp := by
  unfold copyOldO
  split
  · exact TG.On.lift _
  · refine TG.On.bind ?_ fun _ => TG.On.lift _
    unfold copyOldOneT
    exact TG.On.dirty.bind fun _ => (TG.On.lift _).bind fun _ => TG.On.write.bind fun _ => TG.On.lift _

theorem oldLoopO_on (n : Nat) : ∀ ah st, (oldLoopO lost tmp f tab o n ah st).On tmp := by
  induction n with
  | zero => intro ah st; exact TG.On.lift _
  | succ n ih =>
    intro ah st
    unfold oldLoopO
    split
    · exact TG.On.lift _
    · refine (TG.On.lift _).bind fun r => ?_
      split
      · exact TG.On.lift _
      · exact TG.On.lift _
      · exact TG.On.lift _
      · split
        · exact TG.On.lift _
        · exact (copyOldO_on tmp o _ _ _).bind fun st => ih _ _

theorem tailLoopO_on (n : Nat) : ∀ ah st, (tailLoopO lost tmp f tab o n ah st).On tmp := by
  induction n with
  | zero => intro ah st; exact TG.On.lift _
  | succ n ih =>
    intro ah st
    unfold tailLoopO
    split
    · exact TG.On.lift _
    · refine (TG.On.lift _).bind fun r => ?_
      split
      · exact (copyOldO_on tmp o _ _ _).bind fun st => ih _ _
      · exact TG.On.lift _
      · exact TG.On.lift _
      · exact TG.On.lift _

theorem decideO_on (m : Nat) (h : Hdr) (body : List Nat) (st : AddSt) (err : Bool) (ah : Hdr) :
    (decideO tmp f tab e m o h body st err ah).On tmp := by
  unfold decideO
  split
  · split
    · exact TG.On.lift _
    · exact addOneT_on tmp f tab e _ _ _ _
  · split
    · exact TG.On.lift _
    · exact copyOldO_on tmp o _ _ _

theorem appendItO_on (m level : Nat) (name : List Nat) (src : Src) (st : AddSt) :
    (appendItO lost tmp f tab e m level o name src st).On tmp := by
  unfold appendItO
  have hgo : ((do
    let (st, err, ah) ← oldLoopO lost tmp f tab o (oldFuel st) newHdr st
    decideO tmp f tab e m o (srcHeader e level name src) src.body st err ah) : TG AddSt).On tmp :=
    (oldLoopO_on lost tmp f tab o _ _ _).bind fun _ => decideO_on tmp f tab e o _ _ _ _ _ _
  simp only []
  split
  · exact hgo.bind fun _ => TG.On.lift _
  · split
    · exact hgo
    · exact TG.On.lift _
    · exact hgo.bind fun _ => TG.On.lift _

theorem appendTimesO_on (m level : Nat) (name : List Nat) (src : Src) (n : Nat) :
    ∀ st, (appendTimesO lost tmp f tab e m level o name src n st).On tmp := by
  induction n with
  | zero => intro st; exact TG.On.lift _
  | succ n ih =>
    intro st
    unfold appendTimesO
    exact (appendItO_on lost tmp f tab e o _ _ _ _ _).bind fun st => ih st

theorem addItemsO_on (up : List Nat → List Nat) (m level : Nat) (archive : List Nat) (excl : List (List Nat))
    (items : List (List Nat × Option Src)) : ∀ st, (addItemsO lost tmp f tab e up m level o archive excl items st).On tmp := by
  induction items with
  | nil => intro st; exact TG.On.lift _
  | cons x items ih =>
    intro st
    obtain ⟨name, src⟩ := x
    unfold addItemsO
    split
    · exact ih st
    · cases src with
      | none => exact ih st
      | some src => exact (appendTimesO_on lost tmp f tab e o _ _ _ _ _ _).bind fun st => ih st

/-! ### The contents of the temporary file -/

theorem copyOldO_makes (h : Hdr) (rest : List Nat) (st : AddSt) : (copyOldO tmp o h rest st).Makes tmp st.new (·.new) := by
  unfold copyOldO
  split
  · exact TG.Makes.last rfl
  · refine TG.Makes.bind (g := fun x => x.1) ?_ fun _ _ => TG.Makes.last rfl
    unfold copyOldOneT
    exact TG.Makes.dirty.bind fun _ _ => TG.Makes.lift.bind fun _ _ => TG.Makes.write.bind fun _ _ => TG.Makes.last rfl

theorem oldLoopO_makes (n : Nat) : ∀ ah st, (oldLoopO lost tmp f tab o n ah st).Makes tmp st.new (·.1.new) := by
  induction n with
  | zero => intro ah st d _ a h; cases h
  | succ n ih =>
    intro ah st
    unfold oldLoopO
    split
    · exact TG.Makes.last rfl
    · refine TG.Makes.lift.bind fun r _ => ?_
      split
      · exact TG.Makes.last rfl
      · exact TG.Makes.last rfl
      · exact TG.Makes.last rfl
      · split
        · exact TG.Makes.last rfl
        · exact (copyOldO_makes tmp o _ _ _).bind fun st _ => ih _ _

theorem tailLoopO_makes (n : Nat) : ∀ ah st, (tailLoopO lost tmp f tab o n ah st).Makes tmp st.new (·.new) := by
  induction n with
  | zero => intro ah st d _ a h; cases h
  | succ n ih =>
    intro ah st
    unfold tailLoopO
    split
    · exact TG.Makes.last rfl
    · refine TG.Makes.lift.bind fun r _ => ?_
      split
      · exact (copyOldO_makes tmp o _ _ _).bind fun st _ => ih _ _
      · exact TG.Makes.last rfl
      · exact TG.Makes.last rfl
      · exact TG.Makes.last rfl

theorem decideO_makes (m : Nat) (h : Hdr) (body : List Nat) (st : AddSt) (err : Bool) (ah : Hdr) :
    (decideO tmp f tab e m o h body st err ah).Makes tmp st.new (·.new) := by
  unfold decideO
  split
  · split
    · exact TG.Makes.last rfl
    · exact addOneT_makes tmp f tab e _ _ _ _
  · split
    · exact TG.Makes.last rfl
    · exact copyOldO_makes tmp o _ _ _

theorem appendItO_makes (m level : Nat) (name : List Nat) (src : Src) (st : AddSt) :
    (appendItO lost tmp f tab e m level o name src st).Makes tmp st.new (·.new) := by
  unfold appendItO
  have hgo : ((do
    let (st, err, ah) ← oldLoopO lost tmp f tab o (oldFuel st) newHdr st
    decideO tmp f tab e m o (srcHeader e level name src) src.body st err ah) : TG AddSt).Makes tmp st.new (·.new) :=
    (oldLoopO_makes lost tmp f tab o _ _ _).bind fun _ _ => decideO_makes tmp f tab e o _ _ _ _ _ _
  have hp : ∀ a : AddSt, (TG.lift panic : TG AddSt).Makes tmp a.new (·.new) := fun a d _ _ h => by cases h
  simp only []
  split
  · exact hgo.bind fun a _ => hp a
  · split
    · exact hgo
    · exact TG.Makes.last rfl
    · exact hgo.bind fun a _ => hp a

theorem appendTimesO_makes (m level : Nat) (name : List Nat) (src : Src) (n : Nat) :
    ∀ st, (appendTimesO lost tmp f tab e m level o name src n st).Makes tmp st.new (·.new) := by
  induction n with
  | zero => intro st; exact TG.Makes.last rfl
  | succ n ih =>
    intro st
    unfold appendTimesO
    exact (appendItO_makes lost tmp f tab e o _ _ _ _ _).bind fun st _ => ih st

theorem addItemsO_makes (up : List Nat → List Nat) (m level : Nat) (archive : List Nat) (excl : List (List Nat))
    (items : List (List Nat × Option Src)) :
    ∀ st, (addItemsO lost tmp f tab e up m level o archive excl items st).Makes tmp st.new (·.new) := by
  induction items with
  | nil => intro st; exact TG.Makes.last rfl
  | cons x items ih =>
    intro st
    obtain ⟨name, src⟩ := x
    unfold addItemsO
    split
    · exact ih st
    · cases src with
      | none => exact ih st
      | some src => exact (appendTimesO_makes lost tmp f tab e o _ _ _ _ _ _).bind fun st _ => ih st

/-! ### With `Noexec` nothing is written -/

/-- Nothing is done to the disk. -/
def TG.Silent {α : Type} (x : TG α) : Prop := x.ops = []

theorem TG.Silent.bind {α β : Type} {x : TG α} {g : α → TG β} (hx : x.Silent) (hg : ∀ a, (g a).Silent) : (x >>= g).Silent := by
  unfold TG.Silent at *
  cases h : x.res with
  | ok a => rw [TG.ops_ok g h, hx, hg a]; rfl
  | error e => rw [TG.ops_error g h, hx]

theorem TG.Silent.lift {α : Type} (x : G α) : (TG.lift x).Silent := rfl

variable {o}

theorem copyOldO_silent (ho : o.noexec = true) (h : Hdr) (rest : List Nat) (st : AddSt) : (copyOldO tmp o h rest st).Silent := by
  unfold copyOldO
  rw [if_pos ho]
  exact TG.Silent.lift _

theorem oldLoopO_silent (ho : o.noexec = true) (n : Nat) : ∀ ah st, (oldLoopO lost tmp f tab o n ah st).Silent := by
  induction n with
  | zero => intro ah st; exact TG.Silent.lift _
  | succ n ih =>
    intro ah st
    unfold oldLoopO
    split
    · exact TG.Silent.lift _
    · refine (TG.Silent.lift _).bind fun r => ?_
      split
      · exact TG.Silent.lift _
      · exact TG.Silent.lift _
      · exact TG.Silent.lift _
      · split
        · exact TG.Silent.lift _
        · exact (copyOldO_silent tmp ho _ _ _).bind fun st => ih _ _

theorem tailLoopO_silent (ho : o.noexec = true) (n : Nat) : ∀ ah st, (tailLoopO lost tmp f tab o n ah st).Silent := by
  induction n with
  | zero => intro ah st; exact TG.Silent.lift _
  | succ n ih =>
    intro ah st
    unfold tailLoopO
    split
    · exact TG.Silent.lift _
    · refine (TG.Silent.lift _).bind fun r => ?_
      split
      · exact (copyOldO_silent tmp ho _ _ _).bind fun st => ih _ _
      · exact TG.Silent.lift _
      · exact TG.Silent.lift _
      · exact TG.Silent.lift _

theorem decideO_silent (ho : o.noexec = true) (m : Nat) (h : Hdr) (body : List Nat) (st : AddSt) (err : Bool) (ah : Hdr) :
    (decideO tmp f tab e m o h body st err ah).Silent := by
  unfold decideO
  split
  · exact TG.Silent.lift _
  · split
    · exact TG.Silent.lift _
    · exact copyOldO_silent tmp ho _ _ _

theorem appendItO_silent (ho : o.noexec = true) (m level : Nat) (name : List Nat) (src : Src) (st : AddSt) :
    (appendItO lost tmp f tab e m level o name src st).Silent := by
  unfold appendItO
  simp only []
  rw [if_pos ho]
  exact ((oldLoopO_silent lost tmp f tab ho _ _ _).bind fun _ => decideO_silent tmp f tab e ho _ _ _ _ _ _).bind fun _ => TG.Silent.lift _

theorem appendTimesO_silent (ho : o.noexec = true) (m level : Nat) (name : List Nat) (src : Src) (n : Nat) :
    ∀ st, (appendTimesO lost tmp f tab e m level o name src n st).Silent := by
  induction n with
  | zero => intro st; exact TG.Silent.lift _
  | succ n ih =>
    intro st
    unfold appendTimesO
    exact (appendItO_silent lost tmp f tab e ho _ _ _ _ _).bind fun st => ih st

theorem addItemsO_silent (ho : o.noexec = true) (up : List Nat → List Nat) (m level : Nat) (archive : List Nat) (excl : List (List Nat))
    (items : List (List Nat × Option Src)) : ∀ st, (addItemsO lost tmp f tab e up m level o archive excl items st).Silent := by
  induction items with
  | nil => intro st; exact TG.Silent.lift _
  | cons x items ih =>
    intro st
    obtain ⟨name, src⟩ := x
    unfold addItemsO
    split
    · exact ih st
    · cases src with
      | none => exact ih st
      | some src => exact (appendTimesO_silent lost tmp f tab e ho _ _ _ _ _ _).bind fun st => ih st

/-! ### Arguments that make the call panic -/

/-- There is no reader for the argument. -/
def Src.noReader (o : AddOpts) : Src → Prop
  | .file _ _ => o.noexec = true
  | .locked _ _ => o.noexec = true
  | .dir _ => True
  | .link _ _ => True

theorem TG.res_not_ok {α β : Type} (x : TG α) (a : β) (g : α → TG β) (h : ∀ a b, (g a).res ≠ .ok b) : (x >>= g).res ≠ .ok a := by
  intro hx
  rw [TG.res_bind] at hx
  obtain ⟨b, _, h2⟩ := bind_ok hx
  exact h b a h2

theorem appendItO_fails {src : Src} (hs : src.noReader o) (m level : Nat) (name : List Nat) (st st' : AddSt) :
    (appendItO lost tmp f tab e m level o name src st).res ≠ .ok st' := by
  unfold appendItO
  simp only []
  have hp : ∀ (a b : AddSt), (TG.lift panic : TG AddSt).res ≠ .ok b := fun a b h => by cases h
  split
  · exact TG.res_not_ok _ _ _ hp
  · rename_i ho
    cases src with
    | file _ _ => exact absurd hs ho
    | locked _ _ => exact absurd hs ho
    | dir _ => exact TG.res_not_ok _ _ _ hp
    | link _ _ => exact TG.res_not_ok _ _ _ hp

theorem addItemsO_fails {up : List Nat → List Nat} {archive : List Nat} {excl : List (List Nat)} {items : List (List Nat × Option Src)}
    {name : List Nat} {src : Src} (hi : (name, some src) ∈ items) (hn : name ≠ archive) (ht : 0 < timesAdded up excl name) (hs : src.noReader o)
    (m level : Nat) : ∀ st st', (addItemsO lost tmp f tab e up m level o archive excl items st).res ≠ .ok st' := by
  induction items with
  | nil => cases hi
  | cons x items ih =>
    intro st st'
    obtain ⟨n, s⟩ := x
    unfold addItemsO
    rcases List.mem_cons.1 hi with h | h
    · cases h
      rw [if_neg hn]
      simp only []
      intro hx
      rw [TG.res_bind] at hx
      obtain ⟨b, h1, _⟩ := bind_ok hx
      obtain ⟨k, hk⟩ : ∃ k, timesAdded up excl name = k + 1 := ⟨timesAdded up excl name - 1, by omega⟩
      rw [hk] at h1
      unfold appendTimesO at h1
      rw [TG.res_bind] at h1
      obtain ⟨c, h2, _⟩ := bind_ok h1
      exact appendItO_fails lost tmp f tab e hs m level name st c h2
    · split
      · exact ih h st st'
      · split
        · exact ih h st st'
        · exact TG.res_not_ok _ _ _ fun a b => ih h a b

/-! ### The old archive is read to its end at once -/

theorem parseLevel0_size {h g : Hdr} {hs : Nat} {d : List Nat} (hx : parseLevel0 h hs d = .ok (some g)) : hs ≤ g.headerSize := by
  unfold parseLevel0 at hx
  obtain ⟨⟨_, _⟩, _, hx⟩ := bind_ok hx
  obtain ⟨_, _, hx⟩ := bind_ok hx
  obtain ⟨_, _, hx⟩ := bind_ok hx
  obtain ⟨_, _, hx⟩ := bind_ok hx
  obtain ⟨_, _, hx⟩ := bind_ok hx
  obtain ⟨_, _, hx⟩ := bind_ok hx
  obtain ⟨_, _, hx⟩ := bind_ok hx
  obtain ⟨⟨_, _⟩, _, hx⟩ := bind_ok hx
  obtain ⟨_, _, hx⟩ := bind_ok hx
  simp only [] at hx
  split at hx
  · split at hx
    · cases hx; exact Nat.le_refl _
    · cases hx
  · obtain ⟨_, _, hx⟩ := bind_ok hx
    split at hx
    · cases hx; exact Nat.le_refl _
    · obtain ⟨_, _, hx⟩ := bind_ok hx
      split at hx
      · split at hx
        · obtain ⟨_, _, hx⟩ := bind_ok hx
          obtain ⟨_, _, hx⟩ := bind_ok hx
          obtain ⟨_, _, hx⟩ := bind_ok hx
          obtain ⟨_, _, hx⟩ := bind_ok hx
          obtain ⟨_, _, hx⟩ := bind_ok hx
          cases hx
          exact Nat.le_add_right _ _
        · cases hx; exact Nat.le_add_right _ _
      · cases hx; exact Nat.le_add_right _ _

theorem byLevel_size {h : Hdr} {d inp : List Nat} {x : Hdr × List Nat} (h0 : d.getD 0 0 ≠ 0) (hx : byLevel tab h d inp = .ok (some x)) :
    0 < x.1.headerSize := by
  unfold byLevel at hx
  split at hx
  · unfold getLevel0 at hx
    rw [getByte_lt (by omega), ok_bind] at hx
    obtain ⟨_, _, hx⟩ := bind_ok hx
    split at hx
    · cases hx
    · split at hx
      · cases hx
      · split at hx
        · cases hx
        · obtain ⟨r, h1, hx⟩ := bind_ok hx
          cases r with
          | none => cases hx
          | some r =>
            cases hx
            have := parseLevel0_size h1
            simp only []
            omega
  · rw [C16_extended_never_read h d inp x h0 hx]
    omega
  · rcases getLevel2_never tab d inp with h | h <;> (rw [h] at hx; cases hx)
  · rcases getLevel3_never tab d inp with h | h <;> (rw [h] at hx; cases hx)
  · cases hx

/-- A header read has a size. -/
theorem getHeader_size {h g : Hdr} {inp rest : List Nat} (hx : getHeader f tab h inp = .ok (.got g rest)) : 0 < g.headerSize := by
  unfold getHeader at hx
  split at hx
  · cases hx
  · split at hx
    · cases hx
    · rename_i b inp hb
      split at hx
      · cases hx
      · obtain ⟨r, h1, hx⟩ := bind_ok hx
        cases r with
        | none => cases hx
        | some r =>
          obtain ⟨h', rest'⟩ := r
          have hs := byLevel_size tab (x := (h', rest')) (by simpa using hb) h1
          have hx : finishHdr f h' rest' = .got g rest := Except.ok.inj hx
          unfold finishHdr at hx
          simp only [] at hx
          split at hx
          · split at hx
            · cases hx; exact hs
            · cases hx
          · cases hx; exact hs

/-- What is left of the old archive goes to the new one at once. -/
theorem copyOldO_res (ho : o.noexec = false) {h : Hdr} (hs : 0 < h.headerSize) (rest : List Nat) (st : AddSt) :
    ∃ pad, (copyOldO tmp o h rest st).res = .ok { st with new := st.new ++ (rest ++ pad), old := some [] } ∧
      pad.length = (2048 - rest.length % 2048) % 2048 := by
  obtain ⟨pad, h1, h2⟩ := copyfile_ok (h.headerSize + h.packedSize) (by omega) rest
  refine ⟨pad, ?_, h2⟩
  unfold copyOldO
  rw [if_neg (by simp [ho]), TG.res_bind, copyOldOneT_res]
  unfold copyOldOne
  rw [h1]
  rfl

theorem copyOldO_nil (ho : o.noexec = false) {h : Hdr} (st : AddSt) (hst : st.old = some []) : (copyOldO tmp o h [] st).res = .ok st := by
  unfold copyOldO
  rw [if_neg (by simp [ho]), TG.res_bind, copyOldOneT_res]
  unfold copyOldOne copyfile
  split
  · show Except.ok _ = _
    simp [copyLoop]
    cases st; simp_all
  · show Except.ok _ = _
    simp
    cases st; simp_all

theorem oldLoopO_got (ho : o.noexec = false) (hso : o.sort = false) {ah h : Hdr} {st : AddSt} {inp rest : List Nat} (hst : st.old = some inp)
    (hx : getHeader f tab ah inp = .ok (.got h rest)) (n : Nat) :
    (oldLoopO lost tmp f tab o (n + 2) ah st).res = (copyOldO tmp o h rest st).res.map fun st => (st, true, h) := by
  obtain ⟨pad, h1, _⟩ := copyOldO_res tmp ho (getHeader_size f tab hx) rest st
  rw [oldLoopO.eq_2, hst]
  simp only []
  rw [TG.res_bind, TG.res_lift, hx, ok_bind]
  simp only [hso, Bool.false_eq_true, if_false]
  rw [TG.res_bind, h1, ok_bind]
  rfl

theorem tailLoopO_got (ho : o.noexec = false) {ah h : Hdr} {st : AddSt} {inp rest : List Nat} (hst : st.old = some inp)
    (hx : getHeader f tab ah inp = .ok (.got h rest)) (n : Nat) :
    (tailLoopO lost tmp f tab o (n + 2) ah st).res = (copyOldO tmp o h rest st).res := by
  obtain ⟨pad, h1, _⟩ := copyOldO_res tmp ho (getHeader_size f tab hx) rest st
  rw [tailLoopO.eq_2, hst]
  simp only []
  rw [TG.res_bind, TG.res_lift, hx, ok_bind]
  simp only []
  rw [TG.res_bind, h1, ok_bind]
  rfl

/-! ### The order of the operations -/

variable (sfx : Bool) (up : List Nat → List Nat) (m level : Nat) (o : AddOpts) (name : List Nat) (excl : List (List Nat)) (items : List (List Nat × Option Src))
    (arch : Option (List Nat)) (p : Proc)

/-- The operations up to the last `rename`, and those after it (without `Noexec`, with at least one argument). -/
theorem commandAddO_ops (ho : o.noexec = false) (hi : items ≠ []) :
    ∃ A, (∀ x ∈ A, Touches tmp x) ∧
      ((commandAddO lost tmp sfx f tab e up m level o name excl items arch p).ops = A ∧
        (∃ x, (commandAddO lost tmp sfx f tab e up m level o name excl items arch p).res = .error x) ∨
      ∃ (B C : List DiskOp) (st : AddSt), (B = [] ∨ B = [DiskOp.rename name backupName]) ∧ (∀ d : Disk, runOps A d tmp = some (st.new ++ [0])) ∧
        (commandAddO lost tmp sfx f tab e up m level o name excl items arch p).ops = A ++ (B ++ (.rename tmp (newName sfx name) :: C)) ∧
        ((newName sfx name = [] ∨ 0 ∈ newName sfx name) ∧ C = [] ∧
            (commandAddO lost tmp sfx f tab e up m level o name excl items arch p).res = .ok ⟨true, arch, [], st.proc⟩ ∨
          ¬ (newName sfx name = [] ∨ 0 ∈ newName sfx name) ∧ ∃ gone : List (List Nat), C = gone.map .remove ∧
            (∀ x ∈ gone, o.move = true ∧ x ≠ name ∧ ∃ s, (x, s) ∈ items) ∧
            (commandAddO lost tmp sfx f tab e up m level o name excl items arch p).res = .ok ⟨false, some (st.new ++ [0]), gone, st.proc⟩)) := by
  have ho' : ¬ o.noexec = true := by simp [ho]
  unfold commandAddO
  simp only [if_neg hi, if_neg ho']
  rw [TG.ops_ok (a := ()) _ (TG.res_issue _), TG.res_bind, TG.res_issue, ok_bind, TG.ops_issue]
  have h1 := addItemsO_on lost tmp f tab e o up m level name excl items ⟨[], arch, p⟩
  have m1 := addItemsO_makes lost tmp f tab e o up m level name excl items ⟨[], arch, p⟩
  generalize addItemsO lost tmp f tab e up m level o name excl items ⟨[], arch, p⟩ = X at h1 m1
  have hcr : ∀ x ∈ [DiskOp.create tmp], Touches tmp x := by
    intro x hx
    simp only [List.mem_cons, List.not_mem_nil, or_false] at hx
    rw [hx]
    exact rfl
  cases hX : X.res with
  | error x =>
    refine ⟨[.create tmp] ++ X.ops, ?_, Or.inl ⟨?_, x, ?_⟩⟩
    · intro x hx
      rcases List.mem_append.1 hx with hx | hx
      · exact hcr x hx
      · exact h1 x hx
    · rw [TG.ops_error _ hX]
    · rw [TG.res_bind, hX]; rfl
  | ok st =>
    rw [TG.ops_ok _ hX, TG.res_bind, hX, ok_bind]
    have h2 := tailLoopO_on lost tmp f tab o (oldFuel st) newHdr st
    have m2 := tailLoopO_makes lost tmp f tab o (oldFuel st) newHdr st
    generalize tailLoopO lost tmp f tab o (oldFuel st) newHdr st = Y at h2 m2
    cases hY : Y.res with
    | error y =>
      refine ⟨[.create tmp] ++ (X.ops ++ Y.ops), ?_, Or.inl ⟨?_, y, ?_⟩⟩
      · intro x hx
        rcases List.mem_append.1 hx with hx | hx
        · exact hcr x hx
        · rcases List.mem_append.1 hx with hx | hx
          · exact h1 x hx
          · exact h2 x hx
      · rw [TG.ops_error _ hY]
      · rw [TG.res_bind, hY]; rfl
    | ok s2 =>
      rw [TG.ops_ok _ hY, TG.res_bind, hY, ok_bind, TG.ops_ok (a := ()) _ (TG.res_issue _), TG.res_bind, TG.res_issue, ok_bind, TG.ops_issue]
      refine ⟨[.create tmp] ++ (X.ops ++ (Y.ops ++ [.write tmp [0]])), ?_, Or.inr ?_⟩
      · intro x hx
        rcases List.mem_append.1 hx with hx | hx
        · exact hcr x hx
        · rcases List.mem_append.1 hx with hx | hx
          · exact h1 x hx
          · rcases List.mem_append.1 hx with hx | hx
            · exact h2 x hx
            · simp only [List.mem_cons, List.not_mem_nil, or_false] at hx
              rw [hx]
              exact rfl
      · have hB : ∃ B, (B = [] ∨ B = [DiskOp.rename name backupName]) ∧ (backupT o.backup arch name).ops = B ∧
            (backupT o.backup arch name).res = .ok () := by
          unfold backupT
          split
          · exact ⟨_, Or.inr rfl, rfl, rfl⟩
          · exact ⟨_, Or.inl rfl, rfl, rfl⟩
        obtain ⟨B, b1, b2, b3⟩ := hB
        have hrun : ∀ d : Disk, runOps ([DiskOp.create tmp] ++ (X.ops ++ (Y.ops ++ [.write tmp [0]]))) d tmp = some (s2.new ++ [0]) := by
          intro d
          rw [runOps_append, runOps_append, runOps_append]
          have c0 : runOps [DiskOp.create tmp] d tmp = some [] := by simp [runOps, DiskOp.apply, Disk.set]
          have c1 := m2 _ (m1 _ c0 st hX) s2 hY
          exact TG.Makes.write (bs := [0]) _ c1 () rfl
        generalize backupT o.backup arch name = W at b2 b3
        rw [TG.ops_ok _ b3, TG.res_bind, b3, ok_bind, b2, TG.ops_ok (a := ()) _ (TG.res_issue _), TG.res_bind, TG.res_issue, ok_bind, TG.ops_issue]
        by_cases hn : newName sfx name = [] ∨ 0 ∈ newName sfx name
        · refine ⟨B, [], s2, b1, hrun, ?_, Or.inl ⟨hn, rfl, ?_⟩⟩
          · rw [if_pos hn, TG.ops_lift]
            simp only [List.append_assoc, List.cons_append, List.nil_append]
          · rw [if_pos hn, TG.res_lift]
        · refine ⟨B, _, s2, b1, hrun, ?_, Or.inr ⟨hn, (if o.move then (items.filter (fun x => x.1 ≠ name)).map Prod.fst else []), rfl, ?_, ?_⟩⟩
          · rw [if_neg hn]
            rw [TG.ops_ok (a := ()) _ (removeT_res _), removeT_ops, TG.ops_lift]
            simp only [List.append_assoc, List.cons_append, List.nil_append, List.append_nil]
          · intro x hx
            split at hx
            · rename_i hmv
              obtain ⟨y, hy, rfl⟩ := List.mem_map.1 hx
              obtain ⟨g1, g2⟩ := List.mem_filter.1 hy
              exact ⟨hmv, by simpa using g2, y.2, g1⟩
            · cases hx
          · rw [if_neg hn]
            rw [TG.res_bind, removeT_res, ok_bind, TG.res_lift]

end Lha
