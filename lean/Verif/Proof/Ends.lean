import Verif.Proof.Names
import Verif.Proof.Links
import Verif.Props.C14
import Verif.Proof.Copy
/-!
# Reading a header always ends
-/

namespace Lha

/-- The computation does not run for ever. -/
def Ends {α : Type} (x : G α) : Prop := x ≠ .error .diverge

theorem Ends.ok {α : Type} (a : α) : Ends (.ok a : G α) := by intro h; cases h
theorem Ends.panic {α : Type} : Ends (panic : G α) := by intro h; cases h

theorem Ends.bind {α β : Type} {x : G α} {k : α → G β} (hx : Ends x) (hk : ∀ a, x = .ok a → Ends (k a)) : Ends (x >>= k) := by
  cases x with
  | ok a => exact hk a rfl
  | error e =>
    cases e with
    | panic => intro h; cases h
    | diverge => exact absurd rfl hx

theorem Ends.map {α β : Type} {x : G α} {k : α → β} (hx : Ends x) : Ends (x.map k) := by
  cases x with
  | ok a => intro h; cases h
  | error e =>
    cases e with
    | panic => intro h; cases h
    | diverge => exact absurd rfl hx

theorem getByte_ends (d : List Nat) (p : Nat) : Ends (getByte d p) := by
  unfold getByte; split
  · exact Ends.ok _
  · exact Ends.panic

theorem getWord_ends (d : List Nat) (p : Nat) : Ends (getWord d p) :=
  Ends.bind (getByte_ends _ _) fun _ _ => Ends.bind (getByte_ends _ _) fun _ _ => Ends.ok _

theorem getLong_ends (d : List Nat) (p : Nat) : Ends (getLong d p) :=
  Ends.bind (getByte_ends _ _) fun _ _ => Ends.bind (getByte_ends _ _) fun _ _ => Ends.bind (getByte_ends _ _) fun _ _ =>
    Ends.bind (getByte_ends _ _) fun _ _ => Ends.ok _

theorem getMany_ends (d : List Nat) (n : Nat) : ∀ p, Ends (getMany d p n) := by
  induction n with
  | zero => intro p; exact Ends.ok _
  | succ n ih => intro p; exact Ends.bind (getByte_ends _ _) fun _ _ => Ends.bind (ih _) fun _ _ => Ends.ok _

theorem getBytes_ends (d : List Nat) (p len size : Nat) : Ends (getBytes d p len size) :=
  Ends.bind (getMany_ends _ _ _) fun _ _ => Ends.ok _

theorem getBytesI_ends (d : List Nat) (p : Nat) (len : Int) (size : Nat) : Ends (getBytesI d p len size) := by
  unfold getBytesI; split
  · exact Ends.panic
  · exact getBytes_ends _ _ _ _

theorem getByteI_ends (d : List Nat) (p : Int) : Ends (getByteI d p) := by
  unfold getByteI; split
  · exact Ends.ok _
  · exact Ends.panic

theorem getWordI_ends (d : List Nat) (p : Int) : Ends (getWordI d p) :=
  Ends.bind (getByteI_ends _ _) fun _ _ => Ends.bind (getByteI_ends _ _) fun _ _ => Ends.ok _

theorem zeroAt_ends (l : List Nat) (i : Nat) : Ends (zeroAt l i) := by
  unfold zeroAt; split
  · exact Ends.panic
  · exact Ends.ok _

/-- Walk through a straight-line part of the parser. -/
macro "walk" : tactic => `(tactic| repeat' first
  | exact Ends.ok _ | exact Ends.panic
  | exact getByte_ends _ _ | exact getWord_ends _ _ | exact getLong_ends _ _ | exact getBytes_ends _ _ _ _ | exact getBytesI_ends _ _ _ _
  | exact getMany_ends _ _ _ | exact zeroAt_ends _ _
  | (refine Ends.bind ?_ fun _ _ => ?_)
  | split
  | simp only [])

theorem parseLevel0_ends (h : Hdr) (hs : Nat) (d : List Nat) : Ends (parseLevel0 h hs d) := by
  unfold parseLevel0
  walk

theorem getLevel0_ends (h : Hdr) (d inp : List Nat) : Ends (getLevel0 h d inp) := by
  unfold getLevel0
  refine Ends.bind (getByte_ends _ _) fun _ _ => Ends.bind (getByte_ends _ _) fun _ _ => ?_
  split
  · exact Ends.ok _
  · split
    · exact Ends.ok _
    · split
      · exact Ends.ok _
      · refine Ends.bind (parseLevel0_ends _ _ _) fun _ _ => ?_
        split <;> exact Ends.ok _

theorem extCase_ends (s : Ext) : Ends (extCase s) := by
  unfold extCase
  walk

theorem extLoop_ends (n : Nat) : ∀ (s : Ext) (w : Int) (inp : List Nat), inp.length < n → Ends (extLoop n s w inp) := by
  induction n with
  | zero => intro s w inp h; omega
  | succ n ih =>
    intro s w inp h
    unfold extLoop
    split
    · rename_i hne
      split
      · exact Ends.ok _
      · split
        · exact Ends.ok _
        · rename_i x r hr
          refine Ends.bind (extCase_ends _) fun y _ => ?_
          simp only []
          refine Ends.bind (getWordI_ends _ _) fun _ _ => ih _ _ _ ?_
          have e := (readF_some hr).2
          unfold readF at hr
          split at hr
          · cases hr
          · rename_i hc
            have : inp ≠ [] := fun hc' => hc ⟨hne, hc'⟩
            have : 0 < inp.length := List.length_pos_of_ne_nil this
            rw [e, List.length_drop]
            omega
    · exact Ends.ok _

theorem getLevel1_ends (h : Hdr) (d inp : List Nat) : Ends (getLevel1 h d inp) := by
  unfold getLevel1
  walk
  exact extLoop_ends _ _ _ _ (Nat.lt_succ_self _)

theorem byLevel_ends (tab : Arr) (h : Hdr) (d inp : List Nat) : Ends (byLevel tab h d inp) := by
  unfold byLevel
  split
  · exact getLevel0_ends _ _ _
  · exact getLevel1_ends _ _ _
  · rcases getLevel2_never tab d inp with e | e <;> rw [e]
    · exact Ends.ok _
    · exact Ends.panic
  · rcases getLevel3_never tab d inp with e | e <;> rw [e]
    · exact Ends.ok _
    · exact Ends.panic
  · exact Ends.ok _

/-- Reading a header ends, whatever the bytes. -/
theorem getHeader_ends (f : Fmt) (tab : Arr) (h : Hdr) (inp : List Nat) : Ends (getHeader f tab h inp) := by
  unfold getHeader
  split
  · exact Ends.ok _
  · split
    · exact Ends.ok _
    · split
      · exact Ends.ok _
      · refine Ends.bind (byLevel_ends _ _ _ _) fun y _ => ?_
        split <;> exact Ends.ok _

theorem getMany_five {d x : List Nat} (hx : getMany d 2 5 = .ok x) : x = [d.getD 2 0, d.getD 3 0, d.getD 4 0, d.getD 5 0, d.getD 6 0] := by
  have : getMany d 2 5 = .ok [d.getD 2 0, d.getD 3 0, d.getD 4 0, d.getD 5 0, d.getD 6 0] := rfl
  rw [this] at hx
  exact (Except.ok.inj hx).symm

theorem getBytes_five {d x : List Nat} {k n : Nat} (hn : n = 5) (hx : getBytes d 2 5 n = .ok (x, k)) :
    x = [d.getD 2 0, d.getD 3 0, d.getD 4 0, d.getD 5 0, d.getD 6 0] := by
  subst hn
  obtain ⟨y, hy, hx⟩ := bind_ok hx
  cases hx
  simp only [Nat.min_self, Nat.sub_self, List.replicate_zero, List.append_nil]
  exact getMany_five hy

theorem parseLevel0_method {h g : Hdr} {hs : Nat} {d : List Nat} (hm : h.method.length = 5) (hx : parseLevel0 h hs d = .ok (some g)) :
    g.method = [d.getD 2 0, d.getD 3 0, d.getD 4 0, d.getD 5 0, d.getD 6 0] := by
  unfold parseLevel0 at hx
  obtain ⟨⟨x, k⟩, h1, hx⟩ := bind_ok hx
  have e := getBytes_five hm h1
  obtain ⟨_, _, hx⟩ := bind_ok hx
  obtain ⟨_, _, hx⟩ := bind_ok hx
  obtain ⟨_, _, hx⟩ := bind_ok hx
  obtain ⟨_, _, hx⟩ := bind_ok hx
  obtain ⟨_, _, hx⟩ := bind_ok hx
  obtain ⟨_, _, hx⟩ := bind_ok hx
  obtain ⟨_, _, hx⟩ := bind_ok hx
  simp only [] at hx
  obtain ⟨_, _, hx⟩ := bind_ok hx
  split at hx
  · split at hx
    · cases hx; exact e
    · cases hx
  · obtain ⟨_, _, hx⟩ := bind_ok hx
    split at hx
    · cases hx; exact e
    · obtain ⟨_, _, hx⟩ := bind_ok hx
      split at hx
      · split at hx
        · obtain ⟨_, _, hx⟩ := bind_ok hx
          obtain ⟨_, _, hx⟩ := bind_ok hx
          obtain ⟨_, _, hx⟩ := bind_ok hx
          obtain ⟨_, _, hx⟩ := bind_ok hx
          obtain ⟨_, _, hx⟩ := bind_ok hx
          cases hx; exact e
        · cases hx; exact e
      · cases hx; exact e

theorem five_take {d : List Nat} (hd : d.length = 21) (x : List Nat) :
    [(d ++ x).getD 2 0, (d ++ x).getD 3 0, (d ++ x).getD 4 0, (d ++ x).getD 5 0, (d ++ x).getD 6 0] = (d.drop 2).take 5 := by
  match d, hd with
  | _ :: _ :: _ :: _ :: _ :: _ :: _ :: _, _ => rfl

theorem getLevel0_method {h g : Hdr} {d inp rest : List Nat} (hm : h.method.length = 5) (hd : d.length = 21)
    (hx : getLevel0 h d inp = .ok (some (g, rest))) : g.method = (d.drop 2).take 5 := by
  unfold getLevel0 at hx
  obtain ⟨hs, _, hx⟩ := bind_ok hx
  obtain ⟨sm, _, hx⟩ := bind_ok hx
  split at hx
  · cases hx
  · split at hx
    · cases hx
    · rename_i x r hr
      split at hx
      · cases hx
      · obtain ⟨y, hp, hx⟩ := bind_ok hx
        split at hx
        · cases hx
        · cases hx
          exact (parseLevel0_method hm hp).trans (five_take hd x)

theorem getLevel1_method {h g : Hdr} {d inp rest : List Nat} (hm : h.method.length = 5) (hd : d.length = 21)
    (hx : getLevel1 h d inp = .ok (some (g, rest))) : g.method = (d.drop 2).take 5 := by
  unfold getLevel1 at hx
  obtain ⟨hs, _, hx⟩ := bind_ok hx
  obtain ⟨sm, _, hx⟩ := bind_ok hx
  split at hx
  · cases hx
  · rename_i hlt
    split at hx
    · cases hx
    · rename_i x r hr
      split at hx
      · cases hx
      · simp only [] at hx
        obtain ⟨⟨me, k⟩, h1, hx⟩ := bind_ok hx
        have e := getBytes_five hm h1
        obtain ⟨_, _, hx⟩ := bind_ok hx
        obtain ⟨_, _, hx⟩ := bind_ok hx
        obtain ⟨_, _, hx⟩ := bind_ok hx
        obtain ⟨_, _, hx⟩ := bind_ok hx
        obtain ⟨_, _, hx⟩ := bind_ok hx
        obtain ⟨_, _, hx⟩ := bind_ok hx
        obtain ⟨⟨nm, i⟩, _, hx⟩ := bind_ok hx
        simp only [] at hx
        obtain ⟨nm', hz, hx⟩ := bind_ok hx
        obtain ⟨_, _, hx⟩ := bind_ok hx
        obtain ⟨_, _, hx⟩ := bind_ok hx
        obtain ⟨_, _, hx⟩ := bind_ok hx
        split at hx
        · obtain ⟨y, hy, hx⟩ := bind_ok hx
          cases y with
          | none => cases hx
          | some y => exact absurd hy (extLoop_never _ _ _ _ _ (by show hs ≠ 0; omega))
        · cases hx
          exact e.trans (five_take hd x)

theorem finishHdr_method {f : Fmt} {h g : Hdr} {rest rest' : List Nat} (hx : finishHdr f h rest = .got g rest') :
    g.method = h.method ∨ g.method = [45, 108, 104, 100, 45] := by
  have key : ∀ (c : Prop) [Decidable c] (a b : List Nat), (if c then a else b) = b ∨ (if c then a else b) = a := by
    intro c _ a b
    by_cases h : c
    · rw [if_pos h]; exact Or.inr rfl
    · rw [if_neg h]; exact Or.inl rfl
  unfold finishHdr at hx
  simp only [] at hx
  split at hx
  · split at hx
    · cases hx; exact key _ _ _
    · cases hx
  · cases hx; exact key _ _ _

/-- The method of a header read is written in the archive (or is that of a directory). -/
theorem getHeader_method {f : Fmt} {tab : Arr} {h g : Hdr} {inp rest : List Nat} (hm : h.method.length = 5)
    (hx : getHeader f tab h inp = .ok (.got g rest)) : g.method.length = 5 ∧ (g.method = (inp.drop 2).take 5 ∨ g.method = [45, 108, 104, 100, 45]) := by
  obtain ⟨_, hlen, _⟩ := getHeader_got01 hx
  have key : g.method = (inp.drop 2).take 5 ∨ g.method = [45, 108, 104, 100, 45] := by
    cases inp with
    | nil => cases hx
    | cons b inp =>
      have hlen : 21 ≤ inp.length := by simpa using hlen
      unfold getHeader at hx
      split at hx
      · cases hx
      · rename_i b' inp' heq
        obtain ⟨rfl, rfl⟩ := List.cons.inj heq
        split at hx
        · cases hx
        · split at hx
          · cases hx
          · rename_i x r hr
            simp only [] at hx
            obtain ⟨y, hy, hx⟩ := bind_ok hx
            obtain ⟨e1, e2⟩ := readF_some hr
            have hxl : x.length = 20 := by rw [e1, List.length_take]; omega
            have hdd : b :: x ++ List.replicate (20 - x.length) 0 = b :: inp.take 20 := by
              rw [hxl, e1]; simp
            rw [hdd] at hy
            have hdl : (b :: inp.take 20).length = 21 := by
              rw [List.length_cons, List.length_take]; omega
            split at hx
            · cases hx
            · rename_i h1 r1
              have hx := Except.ok.inj hx
              have : h1.method = ((b :: inp.take 20).drop 2).take 5 := by
                unfold byLevel at hy
                split at hy
                · exact getLevel0_method hm hdl hy
                · exact getLevel1_method hm hdl hy
                · rcases getLevel2_never tab (b :: inp.take 20) r with e | e <;> rw [e] at hy <;> cases hy
                · rcases getLevel3_never tab (b :: inp.take 20) r with e | e <;> rw [e] at hy <;> cases hy
                · cases hy
              rcases finishHdr_method hx with e | e
              · refine Or.inl ?_
                rw [e, this]
                match inp, hlen with
                | _ :: _ :: _ :: _ :: _ :: _ :: _, _ => rfl
              · exact Or.inr e
  refine ⟨?_, key⟩
  rcases key with e | e
  · rw [e, List.length_take, List.length_drop]; omega
  · rw [e]; rfl

end Lha
