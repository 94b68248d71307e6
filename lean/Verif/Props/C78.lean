import Verif.Proof.Append
import Verif.Spec.Archive
/-!
# C78: `UpdateIfNewer` adds what is missing and replaces what is older

The property: with `UpdateIfNewer`, `CommandAdd` adds a file that is not in the archive, replaces an entry of the same name that is older, leaves one that is not;
without file arguments it does so for the files named in the archive.
-/

namespace Lha

open Spec

variable (lost : List Nat → List Nat × Hdr) (tmp : List Nat) (sfx : Bool) (f : Fmt) (tab : Arr) (e : Env) (up : List Nat → List Nat)
    (m level : Nat)

/-- The part of `CommandAdd` behind the loop over the arguments. -/
theorem add_congr {o o' : AddOpts} (h1 : o.noexec = false) (h1' : o'.noexec = false) (h2 : o'.move = o.move) (h3 : o'.backup = o.backup) {name : List Nat}
    {excl : List (List Nat)} {items items' : List (List Nat × Option Src)} (hi : items ≠ []) (hi' : items' ≠ []) (hm : items'.map Prod.fst = items.map Prod.fst)
    {arch : Option (List Nat)} {p : Proc}
    (h : ((addItemsO lost tmp f tab e up m level o name excl items ⟨[], arch, p⟩).res >>= fun st => (tailLoopO lost tmp f tab o (oldFuel st) newHdr st).res) =
      ((addItemsO lost tmp f tab e up m level o' name excl items' ⟨[], arch, p⟩).res >>= fun st => (tailLoopO lost tmp f tab o' (oldFuel st) newHdr st).res)) :
    (commandAddO lost tmp sfx f tab e up m level o name excl items arch p).res =
      (commandAddO lost tmp sfx f tab e up m level o' name excl items' arch p).res := by
  have hg : (items'.filter (fun x => x.1 ≠ name)).map Prod.fst = (items.filter (fun x => x.1 ≠ name)).map Prod.fst := by
    have : ∀ l : List (List Nat × Option Src), (l.filter (fun x => x.1 ≠ name)).map Prod.fst = (l.map Prod.fst).filter (fun x => x ≠ name) := by
      intro l
      rw [List.filter_map]
      rfl
    rw [this, this, hm]
  have n1 : ¬ o.noexec = true := by simp [h1]
  have n2 : ¬ o'.noexec = true := by simp [h1']
  unfold commandAddO
  simp only [if_neg hi, if_neg hi', if_neg n1, if_neg n2, h2, h3, hg]
  simp only [TG.res_bind, TG.res_issue, ok_bind]
  generalize (addItemsO lost tmp f tab e up m level o name excl items ⟨[], arch, p⟩).res = X at h ⊢
  generalize (addItemsO lost tmp f tab e up m level o' name excl items' ⟨[], arch, p⟩).res = X' at h ⊢
  have assoc : ∀ (X : G AddSt) (g : AddSt → G AddSt) (k : AddSt → G CallOut), (X >>= fun st => g st >>= k) = ((X >>= g) >>= k) := by
    intro X g k
    cases X <;> rfl
  rw [assoc, assoc, h]

/-- What the first entry of the archive decides. -/
theorem update_item {o : AddOpts} (h1 : o.noexec = false) (hs : o.sort = false) {name n a rest : List Nat} {h : Hdr} (hn : n ≠ name)
    (hx : getHeader f tab newHdr a = .ok (.got h rest)) (t : Nat) (body : List Nat) (p : Proc) :
    ∃ st : AddSt, st.old = some [] ∧ (tailLoopO lost tmp f tab o (oldFuel ⟨[], some a, p⟩) newHdr ⟨[], some a, p⟩).res = .ok st ∧
      (addItemsO lost tmp f tab e up m level o name [] [(n, some (.file t body))] ⟨[], some a, p⟩).res =
        if o.update = false ∨ h.stamp < t then (addOneT tmp f tab e m (srcHeader e level n (.file t body)) body st).res else .ok st := by
  obtain ⟨pad, c1, _⟩ := copyOldO_res tmp h1 (getHeader_size f tab hx) rest ⟨[], some a, p⟩
  have t1 := tailLoopO_got lost tmp f tab h1 (st := ⟨[], some a, p⟩) rfl hx a.length
  have l1 := oldLoopO_got lost tmp f tab h1 hs (st := ⟨[], some a, p⟩) rfl hx a.length
  rw [c1] at t1 l1
  refine ⟨_, rfl, t1, ?_⟩
  have hst : (srcHeader e level n (.file t body)).stamp = t := rfl
  have hl : (oldLoopO lost tmp f tab o (oldFuel ⟨[], some a, p⟩) newHdr ⟨[], some a, p⟩).res = _ := l1
  unfold addItemsO
  rw [if_neg hn]
  simp only []
  rw [show timesAdded up [] n = 1 from rfl, TG.res_bind]
  unfold appendTimesO appendItO
  simp only [h1, Bool.false_eq_true, if_false]
  rw [TG.res_bind, TG.res_bind, hl]
  simp only [Except.map, ok_bind]
  unfold decideO
  simp only [hst, Bool.true_eq_false, false_or, h1, Bool.false_eq_true, if_false]
  split
  · generalize hX : (addOneT tmp f tab e m _ _ _).res = X
    rw [show (addOneT tmp f tab e m (srcHeader e level n (.file t body)) body ⟨[] ++ (rest ++ pad), some [], p⟩).res = X from hX]
    cases X <;> rfl
  · rw [copyOldO_nil tmp h1 _ rfl]
    rfl

/-- **C78 is false**: if the first entry of the archive, *whatever its name*, is not older than the file, the call does what it does if the file does not exist; so a
file that is not in the archive is not added, and no error is reported. -/
theorem C78_not_added (o : AddOpts) (h1 : o.noexec = false) (hs : o.sort = false) (hu : o.update = true) (name n a rest : List Nat) (h : Hdr) (hn : n ≠ name)
    (hx : getHeader f tab newHdr a = .ok (.got h rest)) (t : Nat) (ht : t ≤ h.stamp) (body : List Nat) (p : Proc) :
    (commandAddO lost tmp sfx f tab e up m level o name [] [(n, some (.file t body))] (some a) p).res =
      (commandAddO lost tmp sfx f tab e up m level o name [] [(n, none)] (some a) p).res := by
  obtain ⟨st, s1, s2, s3⟩ := update_item lost tmp f tab e up m level h1 hs hn hx t body p
  refine add_congr lost tmp sfx f tab e up m level (o := o) (o' := o) (items := [(n, some (.file t body))]) (items' := [(n, none)]) h1 h1 rfl rfl (List.cons_ne_nil _ _) (List.cons_ne_nil _ _) rfl ?_
  rw [s3, if_neg (by rintro (h | h); rw [hu] at h; cases h; omega), ok_bind]
  have hnone : addItemsO lost tmp f tab e up m level o name [] [(n, none)] ⟨[], some a, p⟩ = TG.lift (.ok ⟨[], some a, p⟩) := by
    unfold addItemsO
    rw [if_neg hn]
    rfl
  rw [hnone, TG.res_lift, ok_bind, s2]
  unfold oldFuel
  rw [tailLoopO.eq_2, s1]
  rfl

/-- … and if it is older (again whatever its name), the option has no effect: an older entry of the same name is not replaced, the file is added to what there is. -/
theorem C78_not_replaced (o : AddOpts) (h1 : o.noexec = false) (hs : o.sort = false) (name n a rest : List Nat) (h : Hdr) (hn : n ≠ name)
    (hx : getHeader f tab newHdr a = .ok (.got h rest)) (t : Nat) (ht : h.stamp < t) (body : List Nat) (p : Proc) :
    (commandAddO lost tmp sfx f tab e up m level { o with update := true } name [] [(n, some (.file t body))] (some a) p).res =
      (commandAddO lost tmp sfx f tab e up m level { o with update := false } name [] [(n, some (.file t body))] (some a) p).res := by
  obtain ⟨st, s1, s2, s3⟩ := update_item lost tmp f tab e up m level (o := { o with update := true }) h1 hs hn hx t body p
  obtain ⟨st', s1', s2', s3'⟩ := update_item lost tmp f tab e up m level (o := { o with update := false }) h1 hs hn hx t body p
  have hst : st = st' := by
    have e1 := tailLoopO_got lost tmp f tab (o := { o with update := true }) h1 (st := ⟨[], some a, p⟩) rfl hx a.length
    have e2 := tailLoopO_got lost tmp f tab (o := { o with update := false }) h1 (st := ⟨[], some a, p⟩) rfl hx a.length
    have e1 : (tailLoopO lost tmp f tab { o with update := true } (oldFuel ⟨[], some a, p⟩) newHdr ⟨[], some a, p⟩).res = _ := e1
    have e2 : (tailLoopO lost tmp f tab { o with update := false } (oldFuel ⟨[], some a, p⟩) newHdr ⟨[], some a, p⟩).res = _ := e2
    rw [s2] at e1
    rw [s2'] at e2
    have e3 : copyOldO tmp { o with update := true } h rest ⟨[], some a, p⟩ = copyOldO tmp { o with update := false } h rest ⟨[], some a, p⟩ := rfl
    rw [e3, ← e2] at e1
    exact Except.ok.inj e1
  subst hst
  refine add_congr lost tmp sfx f tab e up m level (o := { o with update := true }) (o' := { o with update := false }) (items := [(n, some (.file t body))]) (items' := [(n, some (.file t body))]) h1 h1 rfl rfl (List.cons_ne_nil _ _) (List.cons_ne_nil _ _) rfl ?_
  rw [s3, s3', if_pos (Or.inr ht), if_pos (Or.inl rfl)]
  have : ∀ n h st, (tailLoopO lost tmp f tab { o with update := true } n h st) = tailLoopO lost tmp f tab { o with update := false } n h st := by
    intro n
    induction n with
    | zero => intro h st; rfl
    | succ n ih =>
      intro h st
      simp only [tailLoopO, ih]
      rfl
  simp only [this]

/-- … and without file arguments nothing is updated, and a temporary file is left behind. -/
theorem C78_nothing_updated (o : AddOpts) (h1 : o.noexec = false) (hu : o.update = true) (name : List Nat) (excl : List (List Nat)) (a : List Nat) (p : Proc) (c : CallOut)
    (hc : (commandAddO lost tmp sfx f tab e up m level o name excl [] (some a) p).res = .ok c) :
    c = ⟨false, some a, [], p⟩ ∧ ∀ d : Disk, runOps (commandAddO lost tmp sfx f tab e up m level o name excl [] (some a) p).ops d = d.set tmp (some []) := by
  have n1 : ¬ o.noexec = true := by simp [h1]
  unfold commandAddO at hc ⊢
  rw [if_pos rfl] at hc ⊢
  unfold updateAllO at hc ⊢
  simp only [if_pos hu, if_neg n1] at hc ⊢
  rw [TG.res_bind, TG.res_issue, ok_bind, TG.res_bind, TG.res_lift] at hc
  obtain ⟨u, h2, h3⟩ := bind_ok hc
  cases h3
  refine ⟨rfl, fun d => ?_⟩
  rw [TG.ops_ok (a := ()) _ (TG.res_issue _), TG.ops_ok (a := u) _ (show (TG.lift (findUpdateFiles f tab (a.length + 1) newHdr a)).res = .ok u from h2)]
  rfl

theorem TG.bind_congr {α β : Type} {x : TG α} {g g' : α → TG β} (h : ∀ a, x.res = .ok a → g a = g' a) : (x >>= g) = (x >>= g') := by
  rw [TG.bind_def, TG.bind_def]
  unfold TG.bind
  unfold TG.res at h
  cases hx : x.2 with
  | ok a => simp only [h a hx]; rfl
  | error e => rfl

theorem addOneT_old {h : Hdr} {body : List Nat} {st st' : AddSt} (hx : (addOneT tmp f tab e m h body st).res = .ok st') : st'.old = st.old := by
  rw [addOneT_res] at hx
  unfold addOne at hx
  obtain ⟨_, _, hx⟩ := bind_ok hx
  simp only [] at hx
  split at hx
  · cases hx; rfl
  · obtain ⟨_, _, hx⟩ := bind_ok hx
    split at hx
    · obtain ⟨_, _, hx⟩ := bind_ok hx
      cases hx; rfl
    · obtain ⟨⟨_, _, _⟩, _, hx⟩ := bind_ok hx
      obtain ⟨_, _, hx⟩ := bind_ok hx
      cases hx; rfl

/-- **C78 (partial).** Full statement: see the head of the file.  What is true: if there is no archive yet, every file is missing in it, and the option indeed makes no difference,
whatever the arguments and the other options. -/
theorem C78_partial (o : AddOpts) (name : List Nat) (excl : List (List Nat)) (items : List (List Nat × Option Src)) (p : Proc) :
    commandAddO lost tmp sfx f tab e up m level { o with update := true } name excl items none p =
      commandAddO lost tmp sfx f tab e up m level { o with update := false } name excl items none p := by
  have hloop : ∀ b n st, st.old = none → oldLoopO lost tmp f tab { o with update := b } (n + 1) newHdr st = TG.lift (.ok (st, false, newHdr)) := by
    intro b n st hst
    rw [oldLoopO.eq_2, hst]
  have hit : ∀ name src st, st.old = none → appendItO lost tmp f tab e m level { o with update := true } name src st =
      appendItO lost tmp f tab e m level { o with update := false } name src st := by
    intro name src st hst
    unfold appendItO oldFuel
    simp only [hloop _ _ st hst]
    rfl
  have hold : ∀ name src st st', st.old = none → (appendItO lost tmp f tab e m level { o with update := false } name src st).res = .ok st' → st'.old = none := by
    intro name src st st' hst hx
    have hgo : ∀ s2, ((do
        let (st, err, ah) ← oldLoopO lost tmp f tab { o with update := false } (oldFuel st) newHdr st
        decideO tmp f tab e m { o with update := false } (srcHeader e level name src) src.body st err ah) : TG AddSt).res = .ok s2 → s2.old = none := by
      intro s2 h2
      unfold oldFuel at h2
      rw [hloop _ _ st hst, TG.res_bind, TG.res_lift, ok_bind] at h2
      simp only [] at h2
      unfold decideO at h2
      rw [if_pos (Or.inl rfl)] at h2
      split at h2
      · cases h2; exact hst
      · rw [addOneT_old tmp f tab e m h2, hst]
    unfold appendItO at hx
    simp only [] at hx
    split at hx
    · exact absurd hx (TG.res_not_ok _ _ _ fun a b h => by cases h)
    · split at hx
      · exact hgo _ hx
      · cases hx; exact hst
      · exact absurd hx (TG.res_not_ok _ _ _ fun a b h => by cases h)
  have htimes : ∀ name src k st, st.old = none → appendTimesO lost tmp f tab e m level { o with update := true } name src k st =
      appendTimesO lost tmp f tab e m level { o with update := false } name src k st ∧
      ∀ st', (appendTimesO lost tmp f tab e m level { o with update := false } name src k st).res = .ok st' → st'.old = none := by
    intro name src k
    induction k with
    | zero => intro st hst; exact ⟨rfl, fun st' h => by cases h; exact hst⟩
    | succ k ih =>
      intro st hst
      constructor
      · rw [appendTimesO.eq_2, appendTimesO.eq_2, hit name src st hst]
        exact TG.bind_congr fun a ha => (ih a (hold name src st a hst ha)).1
      · intro st' h
        rw [appendTimesO.eq_2, TG.res_bind] at h
        obtain ⟨a, ha, h⟩ := bind_ok h
        exact (ih a (hold name src st a hst ha)).2 st' h
  have hitems : ∀ items st, st.old = none → addItemsO lost tmp f tab e up m level { o with update := true } name excl items st =
      addItemsO lost tmp f tab e up m level { o with update := false } name excl items st := by
    intro items
    induction items with
    | nil => intro st _; rfl
    | cons x items ih =>
      intro st hst
      obtain ⟨n, src⟩ := x
      unfold addItemsO
      split
      · exact ih st hst
      · cases src with
        | none => exact ih st hst
        | some src =>
          simp only []
          rw [(htimes n src _ st hst).1]
          exact TG.bind_congr fun a ha => ih a ((htimes n src _ st hst).2 a ha)
  have htail : ∀ n h st, tailLoopO lost tmp f tab { o with update := true } n h st = tailLoopO lost tmp f tab { o with update := false } n h st := by
    intro n
    induction n with
    | zero => intro h st; rfl
    | succ n ih =>
      intro h st
      simp only [tailLoopO, ih]
      rfl
  unfold commandAddO
  rw [hitems items _ rfl]
  simp only [htail]
  split
  · rfl
  · rfl

/-! ### Cases covered -/

/-- An archive with one empty entry `ab` of time 99. -/
def datedArchive : List Nat :=
  [36, 124, 45, 108, 104, 48, 45, 0, 0, 0, 0, 0, 0, 0, 0, 0, 0, 0, 0, 32, 0, 2, 97, 98, 0, 0, 85, 0, 99, 0, 0, 0, 128, 1, 0, 0, 0, 0, 0]

/-- Its first header is read; its time is 99.  `C78_not_added` covers a file `c` of time 50, `C78_not_replaced` a file `ab` of time 100. -/
example : (match getHeader ⟨false, false⟩ (Arr.mk' 0 0) newHdr datedArchive with | .ok (.got h _) => (h.stamp, h.name.take 2) | _ => (0, [])) =
    (99, [97, 98]) := by decide +kernel

/-- `C78_nothing_updated`: the call comes to its end. -/
example (tab : Arr) (e : Env) (p : Proc) :
    (commandAddO (fun l => (l, newHdr)) [116] false ⟨false, false⟩ tab e id 5 0 ⟨false, true, false, false, false⟩ [97] [] [] (some [0]) p).res =
      .ok ⟨false, some [0], [], p⟩ := rfl

/-- `C78_partial`: a call that comes to its end. -/
example (tab : Arr) (e : Env) (p : Proc) :
    (commandAddO (fun l => (l, newHdr)) [116] false ⟨false, false⟩ tab e id 5 0 ⟨false, true, false, false, false⟩ [97] [] [([98], none)] none p).res =
      .ok ⟨false, some [0], [], p⟩ := rfl

end Lha
