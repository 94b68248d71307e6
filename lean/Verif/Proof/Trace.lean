import Verif.Model.Trace
import Verif.Proof.Bound
/-!
# Disk operations of `CommandAdd`
-/

namespace Lha

open Spec

/-! ### Crash states -/

theorem runOps_append (a b : List DiskOp) (d : Disk) : runOps (a ++ b) d = runOps b (runOps a d) := by
  unfold runOps; rw [List.foldl_append]

theorem Spec.Crash.append {a b : List DiskOp} {d d' : Disk} (h : Crash (a ++ b) d d') : Crash a d d' ∨ Crash b (runOps a d) d' := by
  obtain ⟨pre, post, e, h⟩ := h
  rcases List.append_eq_append_iff.1 e with ⟨c, e1, e2⟩ | ⟨c, e1, e2⟩
  · -- pre = a ++ c, b = c ++ post
    right
    refine ⟨c, post, e2, ?_⟩
    rw [e1, runOps_append] at h
    exact h
  · -- a = pre ++ c, post = c ++ b
    cases c with
    | nil =>
      rw [List.append_nil] at e1
      rw [List.nil_append] at e2
      right
      refine ⟨[], post, by rw [e2]; rfl, ?_⟩
      rw [e1]
      exact h
    | cons o c =>
      left
      refine ⟨pre, o :: c, e1, ?_⟩
      rcases h with h | ⟨o', post', h1, h2⟩
      · exact Or.inl h
      · rw [e2] at h1
        cases h1
        exact Or.inr ⟨o, c, rfl, h2⟩

theorem Spec.Crash.nil {d d' : Disk} (h : Crash [] d d') : d' = d := by
  obtain ⟨pre, post, e, h⟩ := h
  have := List.append_eq_nil_iff.1 e.symm
  obtain ⟨rfl, rfl⟩ := this
  rcases h with h | ⟨_, _, h, _⟩
  · exact h
  · cases h

theorem Spec.Crash.single {o : DiskOp} {d d' : Disk} (h : Crash [o] d d') : d' = d ∨ o.Torn d d' ∨ d' = o.apply d := by
  obtain ⟨pre, post, e, h⟩ := h
  cases pre with
  | nil =>
    rw [List.nil_append] at e
    subst e
    rcases h with h | ⟨o', post', h1, h2⟩
    · exact Or.inl h
    · cases h1; exact Or.inr (Or.inl h2)
  | cons p pre =>
    rw [List.cons_append] at e
    injection e with e1 e2
    have := List.append_eq_nil_iff.1 e2.symm
    obtain ⟨rfl, rfl⟩ := this
    subst e1
    rcases h with h | ⟨_, _, h, _⟩
    · exact Or.inr (Or.inr h)
    · cases h

/-- The operation changes `n` only. -/
def Touches (n : List Nat) : DiskOp → Prop
  | .create m => m = n
  | .write m _ => m = n
  | .over m _ => m = n
  | .dirty m => m = n
  | .rename _ _ => False
  | .remove _ => False

theorem Touches.apply {n m : List Nat} {o : DiskOp} (h : Touches n o) (hm : m ≠ n) (d : Disk) : o.apply d m = d m := by
  cases o with
  | create => cases h; simp [DiskOp.apply, Disk.set, hm]
  | write => cases h; cases g : d n <;> simp [DiskOp.apply, g, Disk.set, hm]
  | over => cases h; cases g : d n <;> simp [DiskOp.apply, g, Disk.set, hm]
  | dirty => rfl
  | rename => cases h
  | remove => cases h

theorem Touches.torn {n m : List Nat} {o : DiskOp} (h : Touches n o) (hm : m ≠ n) {d d' : Disk} (ht : o.Torn d d') : d' m = d m := by
  cases o with
  | create => cases h; exact ht m hm
  | write => cases h; exact ht m hm
  | over => cases h; exact ht m hm
  | dirty => cases h; exact ht m hm
  | rename => cases h
  | remove => cases h

theorem touches_run {n m : List Nat} (hm : m ≠ n) (ops : List DiskOp) (h : ∀ o ∈ ops, Touches n o) : ∀ d, runOps ops d m = d m := by
  induction ops with
  | nil => intro d; rfl
  | cons o ops ih =>
    intro d
    show runOps ops (o.apply d) m = d m
    rw [ih (fun o' ho => h o' (List.mem_cons_of_mem _ ho)), (h o List.mem_cons_self).apply hm]

theorem touches_crash {n m : List Nat} (hm : m ≠ n) {ops : List DiskOp} (h : ∀ o ∈ ops, Touches n o) {d d' : Disk} (hc : Crash ops d d') :
    d' m = d m := by
  obtain ⟨pre, post, e, hc⟩ := hc
  have hp : runOps pre d m = d m := touches_run hm pre (fun o ho => h o (by rw [e]; exact List.mem_append_left _ ho)) d
  rcases hc with rfl | ⟨o, post', e2, ht⟩
  · exact hp
  · rw [(h o (by rw [e, e2]; simp)).torn hm ht, hp]

/-! ### The monad -/

theorem TG.bind_def {α β : Type} (x : TG α) (f : α → TG β) : (x >>= f) = TG.bind x f := rfl

theorem TG.res_bind {α β : Type} (x : TG α) (f : α → TG β) : (x >>= f).res = (x.res >>= fun a => (f a).res) := by
  rw [TG.bind_def]
  unfold TG.bind TG.res
  cases x.2 <;> rfl

@[simp] theorem TG.res_lift {α : Type} (x : G α) : (TG.lift x).res = x := rfl
@[simp] theorem TG.ops_lift {α : Type} (x : G α) : (TG.lift x).ops = [] := rfl
@[simp] theorem TG.res_issue (o : DiskOp) : (issue o).res = .ok () := rfl
@[simp] theorem TG.ops_issue (o : DiskOp) : (issue o).ops = [o] := rfl

theorem TG.ops_ok {α β : Type} {x : TG α} {a : α} (f : α → TG β) (h : x.res = .ok a) : (x >>= f).ops = x.ops ++ (f a).ops := by
  rw [TG.bind_def]
  unfold TG.bind TG.ops
  unfold TG.res at h
  rw [h]

theorem TG.ops_error {α β : Type} {x : TG α} {e : Fault} (f : α → TG β) (h : x.res = .error e) : (x >>= f).ops = x.ops := by
  rw [TG.bind_def]
  unfold TG.bind TG.ops
  unfold TG.res at h
  rw [h]

/-- All operations of a computation change `n` only. -/
def TG.On (n : List Nat) {α : Type} (x : TG α) : Prop := ∀ o ∈ x.ops, Touches n o

theorem TG.On.bind {n : List Nat} {α β : Type} {x : TG α} {f : α → TG β} (hx : x.On n) (hf : ∀ a, (f a).On n) : (x >>= f).On n := by
  intro o ho
  cases h : x.res with
  | ok a =>
    rw [TG.ops_ok f h] at ho
    rcases List.mem_append.1 ho with ho | ho
    · exact hx o ho
    · exact hf a o ho
  | error e =>
    rw [TG.ops_error f h] at ho
    exact hx o ho

theorem TG.On.lift {n : List Nat} {α : Type} (x : G α) : (TG.lift x).On n := fun o ho => by cases ho

theorem TG.On.one {n : List Nat} {o : DiskOp} (h : Touches n o) : (issue o).On n := fun o' ho => by
  rw [TG.ops_issue] at ho
  simp only [List.mem_cons, List.not_mem_nil, or_false] at ho
  rw [ho]
  exact h

theorem TG.On.write {n bs : List Nat} : TG.On n (issue (.write n bs)) :=
  TG.On.one (n := n) (o := .write n bs) rfl
theorem TG.On.over {n bs : List Nat} : TG.On n (issue (.over n bs)) :=
  TG.On.one (n := n) (o := .over n bs) rfl
theorem TG.On.dirty {n : List Nat} : TG.On n (issue (.dirty n)) :=
  TG.On.one (n := n) (o := .dirty n) rfl

variable (lost : List Nat → List Nat) (tmp : List Nat) (f : Fmt) (tab : Arr) (e : Env)

theorem addOneT_on (m : Nat) (h : Hdr) (body : List Nat) (st : AddSt) : (addOneT tmp f tab e m h body st).On tmp := by
  unfold addOneT
  refine (TG.On.lift _).bind fun w => TG.On.write.bind fun _ => ?_
  simp only []
  split
  · exact TG.On.lift _
  · refine TG.On.dirty.bind fun _ => (TG.On.lift _).bind fun r => TG.On.write.bind fun _ => ?_
    split
    · exact (TG.On.lift _).bind fun _ => TG.On.over.bind fun _ => TG.On.lift _
    · exact TG.On.dirty.bind fun _ => (TG.On.lift _).bind fun _ => TG.On.write.bind fun _ =>
        (TG.On.lift _).bind fun _ => TG.On.over.bind fun _ => TG.On.lift _

theorem oldOneT_on (st : AddSt) : (oldOneT lost tmp f tab st).On tmp := by
  unfold oldOneT
  split
  · exact TG.On.lift _
  · refine (TG.On.lift _).bind fun r => ?_
    split
    · refine TG.On.bind ?_ fun _ => TG.On.lift _
      unfold copyOldOneT
      exact TG.On.dirty.bind fun _ => (TG.On.lift _).bind fun _ => TG.On.write.bind fun _ => TG.On.lift _
    · exact TG.On.lift _
    · exact TG.On.lift _

theorem appendTimesT_on (m level : Nat) (name body : List Nat) (n : Nat) :
    ∀ st, (appendTimesT lost tmp f tab e m level name body n st).On tmp := by
  induction n with
  | zero => intro st; exact TG.On.lift _
  | succ n ih =>
    intro st
    unfold appendTimesT
    refine TG.On.bind ?_ fun st => ih st
    unfold appendOneT
    exact (oldOneT_on lost tmp f tab st).bind fun st => addOneT_on tmp f tab e _ _ _ _

theorem addItemsT_on (up : List Nat → List Nat) (m level : Nat) (archive : List Nat) (excl : List (List Nat))
    (items : List (List Nat × Option (List Nat))) : ∀ st, (addItemsT lost tmp f tab e up m level archive excl items st).On tmp := by
  induction items with
  | nil => intro st; exact TG.On.lift _
  | cons x items ih =>
    intro st
    obtain ⟨name, body⟩ := x
    unfold addItemsT
    split
    · exact ih st
    · cases body with
      | none => exact ih st
      | some body => exact (appendTimesT_on lost tmp f tab e _ _ _ _ _ _).bind fun st => ih st

/-! ### The contents of the temporary file -/

/-- If `x` succeeds its operations turn a disk whose file `n` is `c` into one whose file `n` is `g` of the result. -/
def TG.Makes (n : List Nat) (c : List Nat) {α : Type} (g : α → List Nat) (x : TG α) : Prop :=
  ∀ d : Disk, d n = some c → ∀ a, x.res = .ok a → runOps x.ops d n = some (g a)

theorem TG.Makes.bind {n c : List Nat} {α β : Type} {g : α → List Nat} {k : β → List Nat} {x : TG α} {f : α → TG β} (hx : x.Makes n c g)
    (hf : ∀ a, x.res = .ok a → (f a).Makes n (g a) k) : (x >>= f).Makes n c k := by
  intro d hd b hb
  rw [TG.res_bind] at hb
  obtain ⟨a, h1, h2⟩ := bind_ok hb
  rw [TG.ops_ok f h1, runOps_append]
  exact hf a h1 _ (hx d hd a h1) b h2

theorem TG.Makes.lift {n c : List Nat} {α : Type} {x : G α} : (TG.lift x).Makes n c (fun _ => c) := fun d hd _ _ => hd

theorem TG.Makes.last {n c : List Nat} {α : Type} {x : α} {g : α → List Nat} (hx : g x = c) : (TG.lift (.ok x)).Makes n c g :=
  fun d hd a h => by
    cases h
    rw [hx]
    exact hd

theorem TG.Makes.write {n c bs : List Nat} : (issue (.write n bs)).Makes n c (fun _ => c ++ bs) := fun d hd _ _ => by
  show DiskOp.apply (.write n bs) d n = _
  simp [DiskOp.apply, hd, Disk.set]

theorem TG.Makes.over {n c bs : List Nat} : (issue (.over n bs)).Makes n c (fun _ => overwrite c bs) := fun d hd _ _ => by
  show DiskOp.apply (.over n bs) d n = _
  simp [DiskOp.apply, hd, Disk.set, overwrite]

theorem TG.Makes.dirty {n c : List Nat} : (issue (.dirty n)).Makes n c (fun _ => c) := fun d hd _ _ => hd

theorem addOneT_makes (m : Nat) (h : Hdr) (body : List Nat) (st : AddSt) : (addOneT tmp f tab e m h body st).Makes tmp st.new (·.new) := by
  unfold addOneT
  refine TG.Makes.lift.bind fun w _ => TG.Makes.write.bind fun _ _ => ?_
  simp only []
  split
  · exact TG.Makes.last rfl
  · refine TG.Makes.dirty.bind fun _ _ => TG.Makes.lift.bind fun r _ => TG.Makes.write.bind fun _ _ => ?_
    split
    · exact TG.Makes.lift.bind fun _ _ => TG.Makes.over.bind fun _ _ => TG.Makes.last rfl
    · exact TG.Makes.dirty.bind fun _ _ => TG.Makes.lift.bind fun _ _ => TG.Makes.write.bind fun _ _ => TG.Makes.lift.bind fun _ _ =>
        TG.Makes.over.bind fun _ _ => TG.Makes.last rfl

theorem oldOneT_makes (st : AddSt) : (oldOneT lost tmp f tab st).Makes tmp st.new (·.new) := by
  unfold oldOneT
  split
  · exact TG.Makes.last rfl
  · refine TG.Makes.lift.bind fun r _ => ?_
    split
    · refine TG.Makes.bind (g := fun x => x.1) ?_ fun _ _ => TG.Makes.last rfl
      unfold copyOldOneT
      exact TG.Makes.dirty.bind fun _ _ => TG.Makes.lift.bind fun _ _ => TG.Makes.write.bind fun _ _ =>
        TG.Makes.last rfl
    · exact TG.Makes.last rfl
    · exact TG.Makes.last rfl

theorem appendTimesT_makes (m level : Nat) (name body : List Nat) (n : Nat) :
    ∀ st, (appendTimesT lost tmp f tab e m level name body n st).Makes tmp st.new (·.new) := by
  induction n with
  | zero => intro st; exact TG.Makes.last rfl
  | succ n ih =>
    intro st
    unfold appendTimesT
    refine TG.Makes.bind (g := fun s : AddSt => s.new) ?_ fun st _ => ih st
    unfold appendOneT
    exact (oldOneT_makes lost tmp f tab st).bind fun st _ => addOneT_makes tmp f tab e _ _ _ _

theorem addItemsT_makes (up : List Nat → List Nat) (m level : Nat) (archive : List Nat) (excl : List (List Nat))
    (items : List (List Nat × Option (List Nat))) :
    ∀ st, (addItemsT lost tmp f tab e up m level archive excl items st).Makes tmp st.new (·.new) := by
  induction items with
  | nil => intro st; exact TG.Makes.last rfl
  | cons x items ih =>
    intro st
    obtain ⟨name, body⟩ := x
    unfold addItemsT
    split
    · exact ih st
    · cases body with
      | none => exact ih st
      | some body => exact (appendTimesT_makes lost tmp f tab e _ _ _ _ _ _).bind fun st _ => ih st

/-! ### Without the operations it is the model of `Verif.Model.Archive` -/

theorem addOneT_res (m : Nat) (h : Hdr) (body : List Nat) (st : AddSt) : (addOneT tmp f tab e m h body st).res = addOne f tab e m h body st := by
  unfold addOneT addOne
  simp only [TG.res_bind, TG.res_lift, TG.res_issue, ok_bind]
  congr 1
  funext w
  split
  · rfl
  · simp only [TG.res_bind, TG.res_lift, TG.res_issue, ok_bind]
    congr 1
    funext r
    split
    · simp only [TG.res_bind, TG.res_lift, TG.res_issue, ok_bind]
    · simp only [TG.res_bind, TG.res_lift, TG.res_issue, ok_bind]

theorem copyOldOneT_res (h : Hdr) (rest new : List Nat) : (copyOldOneT tmp h rest new).res = copyOldOne h rest new := by
  unfold copyOldOneT copyOldOne
  simp only [TG.res_bind, TG.res_lift, TG.res_issue, ok_bind]

theorem oldOneT_res {st st' : AddSt} (h : copyTail f tab st = .ok (some st')) : (oldOneT lost tmp f tab st).res = .ok st' := by
  unfold copyTail at h
  unfold oldOneT
  split at h
  · rename_i g
    cases h
    rw [g]
    rfl
  · rename_i g
    cases h
    rw [g]
    simp only [TG.res_bind, TG.res_lift]
    rfl
  · rename_i o _ g
    obtain ⟨r, h1, h2⟩ := bind_ok h
    split at h2
    · obtain ⟨⟨new, rest⟩, h3, h4⟩ := bind_ok h2
      cases h4
      simp only [g, TG.res_bind, TG.res_lift, h1, ok_bind, copyOldOneT_res, h3]
    · cases h2

theorem copyTail_append {m level : Nat} {name body : List Nat} {st st' : AddSt} (h : appendOne f tab e m level name body st = .ok (some st')) :
    ∃ s, copyTail f tab st = .ok (some s) ∧ addOne f tab e m (initHeader e level name body.length false) body s = .ok st' := by
  unfold appendOne at h
  unfold copyTail
  simp only [] at h
  split at h
  · rename_i g
    obtain ⟨s, h1, h2⟩ := bind_ok h
    cases h2
    exact ⟨st, rfl, h1⟩
  · rename_i g
    obtain ⟨s, h1, h2⟩ := bind_ok h
    cases h2
    exact ⟨st, rfl, h1⟩
  · rename_i o g _
    obtain ⟨r, h1, h2⟩ := bind_ok h
    split at h2
    · obtain ⟨⟨new, rest⟩, h3, h4⟩ := bind_ok h2
      obtain ⟨s, h5, h6⟩ := bind_ok h4
      cases h6
      refine ⟨{ st with new := new, old := some rest }, ?_, h5⟩
      simp only [h1, ok_bind, h3]
    · cases h2

theorem appendTimesT_res (m level : Nat) (name body : List Nat) (n : Nat) :
    ∀ st st', appendTimes f tab e m level name body n st = .ok (some st') → (appendTimesT lost tmp f tab e m level name body n st).res = .ok st' := by
  induction n with
  | zero => intro st st' h; cases h; rfl
  | succ n ih =>
    intro st st' h
    unfold appendTimes at h
    obtain ⟨o, h1, h2⟩ := bind_ok h
    cases o with
    | none => cases h2
    | some s =>
      obtain ⟨s0, c1, c2⟩ := copyTail_append f tab e h1
      unfold appendTimesT appendOneT
      rw [TG.res_bind, TG.res_bind, oldOneT_res lost tmp f tab c1, ok_bind, addOneT_res, c2, ok_bind]
      exact ih s st' h2

theorem addItemsT_res (up : List Nat → List Nat) (m level : Nat) (archive : List Nat) (excl : List (List Nat))
    (items : List (List Nat × Option (List Nat))) : ∀ st st', addItems f tab e up m level archive excl items st = .ok (some st') →
    (addItemsT lost tmp f tab e up m level archive excl items st).res = .ok st' := by
  induction items with
  | nil => intro st st' h; cases h; rfl
  | cons x items ih =>
    intro st st' h
    obtain ⟨name, body⟩ := x
    unfold addItems at h
    unfold addItemsT
    split at h
    · rename_i g
      rw [if_pos g]
      exact ih st st' h
    · rename_i g
      rw [if_neg g]
      cases body with
      | none => exact ih st st' h
      | some body =>
        simp only [] at h ⊢
        obtain ⟨o, h1, h2⟩ := bind_ok h
        cases o with
        | none => cases h2
        | some s =>
          rw [TG.res_bind, appendTimesT_res lost tmp f tab e _ _ _ _ _ _ _ h1, ok_bind]
          exact ih s st' h2

theorem removeT_res (ns : List (List Nat)) : (removeT ns).res = .ok () := by
  induction ns with
  | nil => rfl
  | cons n ns ih => unfold removeT; rw [TG.res_bind, TG.res_issue, ok_bind, ih]

theorem removeT_ops (ns : List (List Nat)) : (removeT ns).ops = ns.map .remove := by
  induction ns with
  | nil => rfl
  | cons n ns ih =>
    unfold removeT
    rw [TG.ops_ok (a := ()) _ (TG.res_issue _), ih]
    rfl

end Lha
