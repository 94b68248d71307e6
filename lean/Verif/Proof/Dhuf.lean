import Verif.Model.Dhuf
import Verif.Proof.DynInv
import Verif.Proof.Bound
/-!
# One step of the adaptive tree: `swapInc`
-/

namespace Lha

/-- Array lengths. -/
structure DynSz (s : Dyn) : Prop where
  child : s.child.size = 884
  parent : s.parent.size = 884
  block : s.block.size = 884
  edge : s.edge.size = 884
  stock : s.stock.size = 884
  sNode : s.sNode.size = 442
  freq : s.freq.size = 884

/-- The literal-and-length tree of `n` symbols with weights `w`, one count lacking at node `d`. -/
structure DynInv (n d : Nat) (w : Nat → Nat) (s : Dyn) : Prop where
  sz : DynSz s
  tree : TreeF n s.child.get s.parent.get s.sNode.get
  weight : WeightF n d s.child.get s.freq.get
  block : BlockF (2 * n - 1) s.block.get s.edge.get s.stock.get s.avail s.freq.get
  cap : s.freq.get 0 ≤ 32769
  leafw : ∀ c, c < n → s.freq.get (s.sNode.get c) = w c

theorem ValidF.lt {n v : Nat} (hn : n ≤ 314) (h : ValidF n v) : (32768 ≤ v ∧ v ≤ 65535 ∧ 65535 - v < n) ∨ (1 ≤ v ∧ v ≤ 626 ∧ v % 2 = 0) := by
  rcases h with ⟨c, h1, h2⟩ | ⟨k, h1, h2, h3⟩ <;> omega

theorem setPar_ok {n : Nat} (hn : n ≤ 314) {r : Nat} (q : Nat) {s : Dyn} (hs : DynSz s) (hr : ValidF n r)
    (hpar : ∀ k, 1 ≤ k → k < n → s.parent.get (2 * k - 1) = s.parent.get (2 * k)) :
    ∃ pa sn, setPar r q s = .ok { s with parent := pa, sNode := sn } ∧ pa.size = 884 ∧ sn.size = 442 ∧
      (∀ v, ValidF n v → ownF pa.get sn.get v = if v = r then q else ownF s.parent.get s.sNode.get v) ∧
      (∀ k, 1 ≤ k → k < n → pa.get (2 * k - 1) = pa.get (2 * k)) ∧
      (∀ i, 2 * n - 1 ≤ i → pa.get i = s.parent.get i) ∧ (∀ c, n ≤ c → sn.get c = s.sNode.get c) := by
  unfold setPar
  have hr' := hr.lt hn
  have hr2 : r < 32768 → r < 2 * n - 1 := by
    intro g
    rcases hr with ⟨c, c1, c2⟩ | ⟨k, k1, k2, k3⟩ <;> omega
  have hr3 : 32768 ≤ r → 65535 - r < n := by
    intro g
    rcases hr with ⟨c, c1, c2⟩ | ⟨k, k1, k2, k3⟩ <;> omega
  by_cases h : 32768 ≤ r
  · rw [if_pos h, wr_ok (by rw [hs.sNode]; omega), ok_bind]
    refine ⟨s.parent, _, rfl, hs.parent, by rw [Arr.size_upd, hs.sNode], ?_, hpar, fun _ _ => rfl, fun c hc => Arr.get_upd_ne _ _ _ _ (by omega)⟩
    intro v hv
    have hv' := hv.lt hn
    unfold ownF
    by_cases hv2 : 32768 ≤ v
    · rw [if_pos hv2, if_pos hv2, Arr.get_upd]
      by_cases e : v = r
      · rw [if_pos (by rw [e]), if_pos e]
      · rw [if_neg (by omega), if_neg e]
    · rw [if_neg hv2, if_neg hv2, if_neg (by omega)]
  · rw [if_neg h, if_neg (by omega), wr_ok (by rw [hs.parent]; omega), ok_bind,
      wr_ok (by rw [Arr.size_upd, hs.parent]; omega), ok_bind]
    refine ⟨_, s.sNode, rfl, by simp [hs.parent], hs.sNode, ?_, ?_, fun i hi => ?_, fun _ _ => rfl⟩
    rotate_left 2
    · rw [Arr.get_upd_ne _ _ _ _ (by omega), Arr.get_upd_ne _ _ _ _ (by omega)]
    · intro v hv
      have hv' := hv.lt hn
      unfold ownF
      by_cases hv2 : 32768 ≤ v
      · rw [if_pos hv2, if_pos hv2, if_neg (by omega)]
      · rw [if_neg hv2, if_neg hv2, Arr.get_upd, Arr.get_upd]
        by_cases e : v = r
        · rw [if_pos e, if_pos e]
        · rw [if_neg e, if_neg (by omega), if_neg e]
    · intro k h1 h2
      simp only [Arr.get_upd]
      by_cases e : 2 * k = r
      · rw [if_neg (by omega), if_pos (by omega), if_pos e]
      · rw [if_neg (by omega), if_neg (by omega), if_neg e, if_neg (by omega)]
        exact hpar k h1 h2

theorem edgeInc_ok {b : Nat} {s : Dyn} (hs : DynSz s) (hb : b < 884) (he : s.edge.get b < 65535) :
    edgeInc b s = .ok { s with edge := s.edge.upd b (s.edge.get b + 1) } := by
  unfold edgeInc
  rw [rd_ok (by rw [hs.edge]; exact hb), ok_bind, wr_ok (by rw [hs.edge]; exact hb), ok_bind,
    Nat.mod_eq_of_lt (by omega)]

theorem newBlock_ok {j : Nat} {s : Dyn} (hs : DynSz s) (hj : j < 884) (ha : s.avail < 884) (hb : s.stock.get s.avail < 884) :
    newBlock j s = .ok { s with
      block := s.block.upd j (s.stock.get s.avail), edge := s.edge.upd (s.stock.get s.avail) j, avail := s.avail + 1 } := by
  unfold newBlock
  rw [rd_ok (by rw [hs.stock]; exact ha), ok_bind, wr_ok (by rw [hs.block]; exact hj), ok_bind,
    wr_ok (by rw [hs.edge]; exact hb), ok_bind]

/-- The block number `b` is neither in use for the first `N` nodes nor free. -/
def Away (N b : Nat) (block stock : Nat → Nat) (avail : Nat) : Prop :=
  (∀ i, i < N → block i ≠ b) ∧ ∀ a, avail ≤ a → a < 628 → stock a ≠ b

/-- What the block part of counting up leaves alone. -/
structure BlockK (N : Nat) (bl ed st : Nat → Nat) (av : Nat) (f : Nat → Nat) (bl' ed' st' : Nat → Nat) (av' : Nat) (f' : Nat → Nat) : Prop where
  block : ∀ i, N ≤ i → bl' i = bl i
  away : ∀ b, Away N b bl st av → ed' b = ed b ∧ Away N b bl' st' av'
  cnt : av' + leads f N = av + leads f' N

/-- The block part of counting up a leader that has company. -/
theorem incJoin_ok {N p : Nat} {s : Dyn} (hs : DynSz s)
    (B : BlockF N s.block.get s.edge.get s.stock.get s.avail s.freq.get)
    (hmono : ∀ i j, i ≤ j → j < N → s.freq.get j ≤ s.freq.get i) (hN : N ≤ 627)
    (h1 : 1 ≤ p) (hp : p + 1 < N) (hl : s.edge.get (s.block.get p) = p) (hc : s.freq.get (p + 1) = s.freq.get p)
    (hcap : s.freq.get 0 ≤ 32769) :
    ∃ bl ed av, (edgeInc (s.block.get p) s >>= fun s => incJoin p s) =
        .ok { s with freq := s.freq.upd p (s.freq.get p + 1), block := bl, edge := ed, avail := av } ∧
      bl.size = 884 ∧ ed.size = 884 ∧
      BlockF N bl.get ed.get s.stock.get av (s.freq.upd p (s.freq.get p + 1)).get ∧
      BlockK N s.block.get s.edge.get s.stock.get s.avail s.freq.get bl.get ed.get s.stock.get av (s.freq.upd p (s.freq.get p + 1)).get := by
  have hb := B.blk p (by omega)
  have hlt : s.freq.get p < s.freq.get (p - 1) := B.edge_lt p (p - 1) (by omega) (by omega)
  have h0 := hmono 0 p (by omega) (by omega)
  rw [edgeInc_ok hs (by omega) (by omega), ok_bind]
  unfold incJoin
  simp only []
  rw [rd_ok (by rw [hs.freq]; omega), ok_bind, wr_ok (by rw [hs.freq]; omega), ok_bind, Nat.mod_eq_of_lt (by omega), if_neg (by omega),
    rd_ok (by rw [Arr.size_upd, hs.freq]; omega), ok_bind, Arr.get_upd_ne _ _ _ _ (by omega)]
  have hf : ∀ i, (s.freq.upd p (s.freq.get p + 1)).get i = if i = p then s.freq.get p + 1 else s.freq.get i :=
    fun i => by rw [Arr.get_upd]
  by_cases hj : s.freq.get p + 1 = s.freq.get (p - 1)
  · rw [if_pos hj, rd_ok (by rw [hs.block]; omega), ok_bind, wr_ok (by rw [hs.block]; omega), ok_bind]
    refine ⟨_, _, _, rfl, by rw [Arr.size_upd, hs.block], by rw [Arr.size_upd, hs.edge], ?_⟩
    refine ⟨B.join hmono h1 hp hl hc hf (fun i => by rw [Arr.get_upd, hl]) (fun i => by rw [Arr.get_upd]) hj, ?_, ?_, ?_⟩
    · intro i hi
      rw [Arr.get_upd_ne _ _ _ _ (by omega)]
    · intro b hA
      refine ⟨by rw [Arr.get_upd_ne _ _ _ _ (fun g => hA.1 p (by omega) g.symm)], fun i hi => ?_, hA.2⟩
      rw [Arr.get_upd]
      split
      · exact hA.1 _ (by omega)
      · exact hA.1 _ hi
    · have := leads_inc s.freq.get _ N p h1 (by omega) hf hlt (fun h => hmono _ _ (by omega) h)
      rw [if_pos hj, if_pos ⟨by omega, hc⟩] at this
      omega
  · rw [if_neg hj]
    have hF := B.fresh hmono hN h1 hp hl hc hf
      (edge' := ((s.edge.upd (s.block.get p) (s.edge.get (s.block.get p) + 1)).upd (s.stock.get s.avail) p).get)
      (fun i => by rw [Arr.get_upd, Arr.get_upd, hl]) (block' := (s.block.upd p (s.stock.get s.avail)).get)
      (fun i => by rw [Arr.get_upd]) hj
    obtain ⟨f1, f2, _⟩ := B.free s.avail (by omega) hF.1
    have hs' : DynSz { s with
        freq := s.freq.upd p (s.freq.get p + 1), edge := s.edge.upd (s.block.get p) (s.edge.get (s.block.get p) + 1) } :=
      ⟨hs.child, hs.parent, hs.block, by rw [Arr.size_upd, hs.edge], hs.stock, hs.sNode, by rw [Arr.size_upd, hs.freq]⟩
    rw [newBlock_ok hs' (by omega) (by simp only []; omega) (by simp only []; omega)]
    refine ⟨_, _, _, rfl, by rw [Arr.size_upd, hs.block], by simp [hs.edge], hF.2, ?_, ?_, ?_⟩
    · intro i hi
      rw [Arr.get_upd_ne _ _ _ _ (by omega)]
    · intro b hA
      refine ⟨?_, fun i hi => ?_, fun a a1 a2 => hA.2 a (by simp only [] at a1; omega) a2⟩
      · rw [Arr.get_upd_ne _ _ _ _ (fun g => hA.2 s.avail (by omega) hF.1 g.symm), Arr.get_upd_ne _ _ _ _ (fun g => hA.1 p (by omega) g.symm)]
      · rw [Arr.get_upd]
        split
        · exact hA.2 _ (Nat.le_refl _) hF.1
        · exact hA.1 _ hi
    · have := leads_inc s.freq.get _ N p h1 (by omega) hf hlt (fun h => hmono _ _ (by omega) h)
      rw [if_neg hj, if_pos ⟨by omega, hc⟩] at this
      simp only []
      omega

/-- The block part of counting up a lone leader. -/
theorem incAlone_ok {N p : Nat} {s : Dyn} (hs : DynSz s)
    (B : BlockF N s.block.get s.edge.get s.stock.get s.avail s.freq.get)
    (hmono : ∀ i j, i ≤ j → j < N → s.freq.get j ≤ s.freq.get i) (hN : N ≤ 627)
    (h1 : 1 ≤ p) (hp : p < N) (hl : s.edge.get (s.block.get p) = p) (hc : p + 1 < N → s.freq.get (p + 1) ≠ s.freq.get p)
    (hcap : s.freq.get 0 ≤ 32769) :
    ∃ bl st av, incAlone (s.block.get p) p s =
        .ok { s with freq := s.freq.upd p (s.freq.get p + 1), block := bl, stock := st, avail := av } ∧
      bl.size = 884 ∧ st.size = 884 ∧
      BlockF N bl.get s.edge.get st.get av (s.freq.upd p (s.freq.get p + 1)).get ∧
      BlockK N s.block.get s.edge.get s.stock.get s.avail s.freq.get bl.get s.edge.get st.get av (s.freq.upd p (s.freq.get p + 1)).get := by
  have hlt : s.freq.get p < s.freq.get (p - 1) := B.edge_lt p (p - 1) (by omega) (by omega)
  have h0 := hmono 0 p (by omega) (by omega)
  have hav := B.cnt
  have hle := leads_le s.freq.get N
  unfold incAlone
  rw [rd_ok (by rw [hs.freq]; omega), ok_bind, wr_ok (by rw [hs.freq]; omega), ok_bind, Nat.mod_eq_of_lt (by omega), if_neg (by omega),
    rd_ok (by rw [Arr.size_upd, hs.freq]; omega), ok_bind, Arr.get_upd_ne _ _ _ _ (by omega)]
  have hf : ∀ i, (s.freq.upd p (s.freq.get p + 1)).get i = if i = p then s.freq.get p + 1 else s.freq.get i :=
    fun i => by rw [Arr.get_upd]
  by_cases hj : s.freq.get p + 1 = s.freq.get (p - 1)
  · rw [if_pos hj, if_neg (by omega), wr_ok (by rw [hs.stock]; omega), ok_bind, rd_ok (by rw [hs.block]; omega), ok_bind,
      wr_ok (by rw [hs.block]; omega), ok_bind]
    refine ⟨_, _, _, rfl, by rw [Arr.size_upd, hs.block], by rw [Arr.size_upd, hs.stock], ?_⟩
    refine ⟨(B.merge hmono h1 hp hl hc hf (fun i => by rw [Arr.get_upd]) (fun i => by rw [Arr.get_upd]) hj).2, ?_, ?_, ?_⟩
    · intro i hi
      rw [Arr.get_upd_ne _ _ _ _ (by omega)]
    · intro b hA
      refine ⟨rfl, fun i hi => ?_, fun a a1 a2 => ?_⟩
      · rw [Arr.get_upd]
        split
        · exact hA.1 _ (by omega)
        · exact hA.1 _ hi
      · rw [Arr.get_upd]
        split
        · exact hA.1 _ hp
        · exact hA.2 a (by omega) a2
    · have := leads_inc s.freq.get _ N p h1 (by omega) hf hlt (fun h => hmono _ _ (by omega) h)
      rw [if_pos hj, if_neg (by intro h; exact hc h.1 h.2)] at this
      omega
  · rw [if_neg hj]
    refine ⟨_, _, _, rfl, hs.block, hs.stock, B.stay hmono h1 hp hl hc hf hj, fun _ _ => rfl, fun b hA => ⟨rfl, hA⟩, ?_⟩
    have := leads_inc s.freq.get _ N p h1 (by omega) hf hlt (fun h => hmono _ _ (by omega) h)
    rw [if_neg hj, if_neg (by intro h; exact hc h.1 h.2)] at this
    omega

/-- Counting up a leader `p`, tree and weights included. -/
theorem inc_leader {n p : Nat} {w : Nat → Nat} {s s' : Dyn} (hn1 : 2 ≤ n) (hn : n ≤ 314) (h : DynInv n p w s) (h1 : 1 ≤ p)
    (hp : p < 2 * n - 1) (hl : s.edge.get (s.block.get p) = p) (hsz : DynSz s') (hch : s'.child = s.child)
    (hpa : s'.parent = s.parent) (hsn : s'.sNode = s.sNode) (hfr : s'.freq = s.freq.upd p (s.freq.get p + 1))
    (B : BlockF (2 * n - 1) s'.block.get s'.edge.get s'.stock.get s'.avail s'.freq.get) :
    s.parent.get p < p ∧ (∃ k, 1 ≤ k ∧ k < n ∧ s'.child.get (s.parent.get p) = 2 * k) ∧
      DynInv n (s.parent.get p) (fun c => w c + if s.sNode.get c = p then 1 else 0) s' := by
  have hlt : s.freq.get p < s.freq.get (p - 1) := h.block.edge_lt p (p - 1) hp (by omega)
  have hf : ∀ i, s'.freq.get i = if i = p then s.freq.get p + 1 else s.freq.get i := fun i => by rw [hfr, Arr.get_upd]
  obtain ⟨k', c1, c2⟩ : ∃ k', k' < n ∧ (p = 2 * k' ∨ p = 2 * k' - 1 ∧ 1 ≤ k') := ⟨(p + 1) / 2, by omega, by omega⟩
  have hu := h.tree.up k' (by omega) c1
  have hpk : s.parent.get p = s.parent.get (2 * k') := by
    rcases c2 with c2 | c2
    · rw [c2]
    · rw [c2.1, hu.2]
  have hck : s.child.get (s.parent.get p) = 2 * k' := by
    have := (h.tree.owner (2 * k') (Or.inr ⟨k', by omega, c1, rfl⟩)).2
    unfold ownF at this
    rw [if_neg (by omega)] at this
    rw [hpk]; exact this
  have hpp : s.parent.get p < p := by rw [hpk]; omega
  refine ⟨hpp, ⟨k', by omega, c1, by rw [hch]; exact hck⟩, hsz, by rw [hch, hpa, hsn]; exact h.tree, ?_, B, by rw [hf, if_neg (by omega)]; exact h.cap, ?_⟩
  · rw [hch]
    exact WeightF.inc h.tree hn h.weight hp h1 hlt hf
  · intro c hc
    rw [hsn, hf]
    by_cases e : s.sNode.get c = p
    · rw [if_pos e, if_pos e, ← h.leafw c hc, e]
    · rw [if_neg e, if_neg e, ← h.leafw c hc]; rfl

/-- The root has the first pair below it. -/
theorem TreeF.root {n : Nat} {child parent sNode : Nat → Nat} (T : TreeF n child parent sNode) (hn1 : 2 ≤ n) : child 0 = 2 := by
  have h := T.owner 2 (Or.inr ⟨1, by omega, by omega, rfl⟩)
  have hu := (T.up 1 (by omega) (by omega)).1
  simp only [Nat.mul_one] at hu
  have e : ownF parent sNode 2 = parent 2 := by unfold ownF; rw [if_neg (by omega)]
  rw [e] at h
  have : parent 2 = 0 := by omega
  rw [this] at h
  exact h.2

theorem WeightF.root_lt {n p : Nat} {child parent sNode freq : Nat → Nat} (T : TreeF n child parent sNode) (hn1 : 2 ≤ n)
    (W : WeightF n p child freq) (h1 : 1 ≤ p) {i : Nat} (hi1 : 1 ≤ i) (hi : i < 2 * n - 1) : freq i < freq 0 := by
  have h := W.sum 0 1 (by omega) (by omega) (by omega) (T.root hn1)
  rw [if_neg (by omega), if_pos rfl] at h
  have := W.mono 1 i hi1 hi
  simp only [Nat.mul_one, show 2 - 1 = 1 from rfl] at h
  have := W.pos 2 (by omega)
  omega

/-- The exchange inside a block. -/
theorem swap_ok {n p q : Nat} {w : Nat → Nat} {s : Dyn} (hn : n ≤ 314) (h : DynInv n p w s)
    (hp : p < 2 * n - 1) (hqp : q < p) (h0 : q ≠ 0) (he : s.freq.get q = s.freq.get p) :
    ∃ ch pa sn, (rd s.child p >>= fun r => rd s.child q >>= fun t => wr s.child p t >>= fun ch => wr ch q r >>= fun ch =>
        setPar r q { s with child := ch } >>= fun s => setPar t p s) = .ok { s with child := ch, parent := pa, sNode := sn } ∧
      DynInv n q w { s with child := ch, parent := pa, sNode := sn } ∧
      (∀ c, c < n → (sn.get c = q ↔ s.sNode.get c = p)) ∧
      (∀ i, ch.get i = if i = q then s.child.get p else if i = p then s.child.get q else s.child.get i) ∧
      (∀ i, 2 * n - 1 ≤ i → pa.get i = s.parent.get i) ∧ (∀ c, n ≤ c → sn.get c = s.sNode.get c) := by
  have hs := h.sz
  rw [rd_ok (by rw [hs.child]; omega), ok_bind, rd_ok (by rw [hs.child]; omega), ok_bind, wr_ok (by rw [hs.child]; omega), ok_bind,
    wr_ok (by rw [Arr.size_upd, hs.child]; omega), ok_bind]
  have vp := (h.tree.node p hp)
  have vq := (h.tree.node q (by omega))
  have hs1 : DynSz { s with child := (s.child.upd p (s.child.get q)).upd q (s.child.get p) } :=
    ⟨by simp [hs.child], hs.parent, hs.block, hs.edge, hs.stock, hs.sNode, hs.freq⟩
  obtain ⟨pa, sn, e1, z1, z2, o1, r1, u1, u2⟩ := setPar_ok hn q hs1 vp.1 (fun k a b => (h.tree.up k a b).2)
  rw [e1, ok_bind]
  have hs2 : DynSz { s with child := (s.child.upd p (s.child.get q)).upd q (s.child.get p), parent := pa, sNode := sn } :=
    ⟨by simp [hs.child], z1, hs.block, hs.edge, hs.stock, z2, hs.freq⟩
  obtain ⟨pa', sn', e2, z3, z4, o2, r2, u3, u4⟩ := setPar_ok hn p hs2 vq.1 r1
  have hne : s.child.get p ≠ s.child.get q := fun e => by have := h.tree.inj hp (by omega) e; omega
  have ho : ∀ v, ValidF n v → ownF pa'.get sn'.get v = if v = s.child.get q then p else if v = s.child.get p then q
      else ownF s.parent.get s.sNode.get v := by
    intro v hv
    rw [o2 v hv, o1 v hv]
  have hch : ∀ i, ((s.child.upd p (s.child.get q)).upd q (s.child.get p)).get i =
      if i = q then s.child.get p else if i = p then s.child.get q else s.child.get i := fun i => by
    rw [Arr.get_upd, Arr.get_upd]
  have hsn : ∀ c, c < n → sn'.get c = if 65535 - c = s.child.get q then p else if 65535 - c = s.child.get p then q
      else s.sNode.get c := by
    intro c hc
    have := ho (65535 - c) (Or.inl ⟨c, hc, rfl⟩)
    have a : 65535 - (65535 - c) = c := by omega
    have e : ∀ pa sn : Nat → Nat, ownF pa sn (65535 - c) = sn c := fun pa sn => by
      unfold ownF; rw [if_pos (by omega), a]
    rw [e, e] at this
    exact this
  have own : ∀ c i, c < n → i < 2 * n - 1 → (65535 - c = s.child.get i ↔ s.sNode.get c = i) := by
    intro c i hc hi
    have a : 65535 - (65535 - c) = c := by omega
    have h1 := h.tree.owner (65535 - c) (Or.inl ⟨c, hc, rfl⟩)
    have h2 := (h.tree.node i hi).2
    unfold ownF at h1
    rw [if_pos (by omega), a] at h1
    constructor
    · intro e
      rw [← e] at h2
      unfold ownF at h2
      rw [if_pos (by omega), a] at h2
      exact h2
    · intro e
      rw [e] at h1
      exact h1.2.symm
  refine ⟨_, pa', sn', e2, ⟨⟨by simp [hs.child], z3, hs.block, hs.edge, hs.stock, z4, hs.freq⟩, ?_, ?_, h.block, h.cap, ?_⟩, ?_, hch,
    fun i hi => by rw [u3 i hi, u1 i hi], fun c hc => by rw [u4 c hc, u2 c hc]⟩
  · refine h.tree.swap hn hp hqp ?_ hch ho r2
    intro k a b e
    have := h.weight.sum q k (by omega) a b e
    rw [if_neg (by omega), if_neg h0] at this
    by_contra hc
    have m := h.weight.mono (2 * k - 1) p (by omega) hp
    have l := h.weight.pos (2 * k) (by omega)
    omega
  · exact h.weight.swap hp hqp h0 he hch
  · intro c hc
    have := h.leafw c hc
    simp only []
    rw [hsn c hc]
    have w1 := own c q hc (by omega)
    have w2 := own c p hc hp
    split
    · rename_i g; rw [w1] at g; rw [g] at this; omega
    · split
      · rename_i g; rw [w2] at g; rw [g] at this; omega
      · exact this
  · intro c hc
    rw [hsn c hc]
    have w1 := own c q hc (by omega)
    have w2 := own c p hc hp
    split
    · rename_i g; rw [w1] at g; omega
    · rename_i g
      split
      · rename_i g'; rw [w2] at g'; simp [g']
      · rename_i g'; rw [w1] at g; rw [w2] at g'; simp [g, g']

theorem DynInv.congr {n d : Nat} {w w' : Nat → Nat} {s : Dyn} (h : DynInv n d w s) (hw : ∀ c, c < n → w c = w' c) :
    DynInv n d w' s :=
  ⟨h.sz, h.tree, h.weight, h.block, h.cap, fun c hc => by rw [h.leafw c hc, hw c hc]⟩

theorem parent_rd {n p : Nat} {w : Nat → Nat} {s : Dyn} {d : Nat} (h : DynInv n d w s) (hn : n ≤ 314) (hp : p < 2 * n - 1) :
    rd s.parent p = .ok (s.parent.get p) := rd_ok (by rw [h.sz.parent]; omega)

/-- What counting up leaves alone: everything outside the tree. -/
structure DynFrame (n : Nat) (s s' : Dyn) : Prop where
  child : ∀ i, 2 * n - 1 ≤ i → s'.child.get i = s.child.get i
  parent : ∀ i, 2 * n - 1 ≤ i → s'.parent.get i = s.parent.get i
  freq : ∀ i, 2 * n - 1 ≤ i → s'.freq.get i = s.freq.get i
  sNode : ∀ c, n ≤ c → s'.sNode.get c = s.sNode.get c
  rest : s'.mostP = s.mostP ∧ s'.totalP = s.totalP ∧ s'.nn = s.nn ∧ s'.nextcount = s.nextcount
  blocks : BlockK (2 * n - 1) s.block.get s.edge.get s.stock.get s.avail s.freq.get s'.block.get s'.edge.get s'.stock.get s'.avail s'.freq.get

theorem BlockK.trans {N : Nat} {b0 e0 s0 f0 b1 e1 s1 f1 b2 e2 s2 f2 : Nat → Nat} {a0 a1 a2 : Nat} (h : BlockK N b0 e0 s0 a0 f0 b1 e1 s1 a1 f1)
    (h' : BlockK N b1 e1 s1 a1 f1 b2 e2 s2 a2 f2) : BlockK N b0 e0 s0 a0 f0 b2 e2 s2 a2 f2 :=
  ⟨fun i hi => by rw [h'.block i hi, h.block i hi],
    fun b hb => ⟨by rw [(h'.away b (h.away b hb).2).1, (h.away b hb).1], (h'.away b (h.away b hb).2).2⟩,
    by have := h.cnt; have := h'.cnt; omega⟩

theorem DynFrame.trans {n : Nat} {a b c : Dyn} (h : DynFrame n a b) (h' : DynFrame n b c) : DynFrame n a c :=
  ⟨fun i hi => by rw [h'.child i hi, h.child i hi], fun i hi => by rw [h'.parent i hi, h.parent i hi],
    fun i hi => by rw [h'.freq i hi, h.freq i hi], fun i hi => by rw [h'.sNode i hi, h.sNode i hi],
    ⟨by rw [h'.rest.1, h.rest.1], by rw [h'.rest.2.1, h.rest.2.1], by rw [h'.rest.2.2.1, h.rest.2.2.1], by rw [h'.rest.2.2.2, h.rest.2.2.2]⟩,
    h.blocks.trans h'.blocks⟩

/-- What counting up below the root leaves alone. -/
structure Keep (n : Nat) (s s' : Dyn) : Prop where
  nMax : s'.nMax = s.nMax
  n1 : s'.n1 = s.n1
  root : s'.freq.get 0 = s.freq.get 0
  frame : DynFrame n s s'

theorem Keep.trans {n : Nat} {a b c : Dyn} (h : Keep n a b) (h' : Keep n b c) : Keep n a c :=
  ⟨by rw [h'.nMax, h.nMax], by rw [h'.n1, h.n1], by rw [h'.root, h.root], h.frame.trans h'.frame⟩

theorem self_swap (f : Nat → Nat) (p i : Nat) : f i = if i = p then f p else if i = p then f p else f i := by
  by_cases g : i = p
  · rw [if_pos g, g]
  · rw [if_neg g, if_neg g]

/-- Node `p` went to the place of the first node `q` of its weight, which weighs one more now; `x` is the parent there. -/
def Moved (p : Nat) (s s' : Dyn) (x : Nat) : Prop :=
  ∃ q, 1 ≤ q ∧ q ≤ p ∧ s.freq.get q = s.freq.get p ∧ s.freq.get q < s.freq.get (q - 1) ∧
    (∀ i, s'.child.get i = if i = q then s.child.get p else if i = p then s.child.get q else s.child.get i) ∧
    (∀ i, s'.freq.get i = if i = q then s.freq.get q + 1 else s.freq.get i) ∧ x = s'.parent.get q

/-- Counting up the node that lacks one: its parent lacks one afterwards.  The tree keeps its shape invariants. -/
theorem swapInc_ok {n p : Nat} {w : Nat → Nat} {s : Dyn} (hn1 : 2 ≤ n) (hn : n ≤ 314) (h : DynInv n p w s) (h1 : 1 ≤ p)
    (hp : p < 2 * n - 1) :
    ∃ x s', swapInc p s = .ok (x, s') ∧ x < p ∧ (∃ k, 1 ≤ k ∧ k < n ∧ s'.child.get x = 2 * k) ∧
      DynInv n x (fun c => w c + if s.sNode.get c = p then 1 else 0) s' ∧ Keep n s s' ∧
      Moved p s s' x := by
  have hs := h.sz
  have B := h.block
  have hb := B.blk p hp
  have mono : ∀ i j, i ≤ j → j < 2 * n - 1 → s.freq.get j ≤ s.freq.get i := h.weight.mono
  unfold swapInc
  rw [rd_ok (by rw [hs.block]; omega), ok_bind, rd_ok (by rw [hs.edge]; omega), ok_bind]
  have hle := B.edge_le p hp
  have heq := B.edge_eq p hp
  have hr := WeightF.root_lt h.tree hn1 h.weight h1 h1 hp
  by_cases hq : s.edge.get (s.block.get p) = p
  · rw [if_neg (by simp [hq]), rd_ok (by rw [hs.block]; omega), ok_bind]
    by_cases hc : s.block.get p = s.block.get (p + 1)
    · rw [if_pos hc]
      have hp1 : p + 1 < 2 * n - 1 := by
        by_contra g
        have : p + 1 = 2 * n - 1 := by omega
        rw [this, B.pad] at hc
        omega
      obtain ⟨bl, ed, av, e, z1, z2, B', K'⟩ := incJoin_ok hs B mono (by omega) h1 hp1 hq (B.sep hp1 hp hc.symm) h.cap
      rw [e, ok_bind]
      obtain ⟨i1, i0, i2⟩ := inc_leader (s' := { s with
        freq := s.freq.upd p (s.freq.get p + 1), block := bl, edge := ed, avail := av }) hn1 hn h h1 hp hq
        ⟨hs.child, hs.parent, z1, z2, hs.stock, hs.sNode, by simp [hs.freq]⟩ rfl rfl rfl rfl B'
      rw [rd_ok (by rw [hs.parent]; omega), ok_bind]
      exact ⟨_, _, rfl, i1, i0, i2, ⟨rfl, rfl, Arr.get_upd_ne _ _ _ _ (by omega), fun _ _ => rfl, fun _ _ => rfl,
        fun i hi => Arr.get_upd_ne _ _ _ _ (by omega), fun _ _ => rfl, ⟨rfl, rfl, rfl, rfl⟩, K'⟩, p, h1, Nat.le_refl _, rfl,
        B.edge_lt p (p - 1) hp (by omega), fun i => self_swap _ _ _, fun i => Arr.get_upd _ _ _ _, rfl⟩
    · rw [if_neg hc]
      obtain ⟨bl, st, av, e, z1, z2, B', K'⟩ := incAlone_ok hs B mono (by omega) h1 hp hq
        (fun g1 g2 => hc (B.same _ _ hp g1 g2.symm)) h.cap
      rw [e, ok_bind]
      obtain ⟨i1, i0, i2⟩ := inc_leader (s' := { s with
        freq := s.freq.upd p (s.freq.get p + 1), block := bl, stock := st, avail := av }) hn1 hn h h1 hp hq
        ⟨hs.child, hs.parent, z1, hs.edge, z2, hs.sNode, by simp [hs.freq]⟩ rfl rfl rfl rfl B'
      rw [rd_ok (by rw [hs.parent]; omega), ok_bind]
      exact ⟨_, _, rfl, i1, i0, i2, ⟨rfl, rfl, Arr.get_upd_ne _ _ _ _ (by omega), fun _ _ => rfl, fun _ _ => rfl,
        fun i hi => Arr.get_upd_ne _ _ _ _ (by omega), fun _ _ => rfl, ⟨rfl, rfl, rfl, rfl⟩, K'⟩, p, h1, Nat.le_refl _, rfl,
        B.edge_lt p (p - 1) hp (by omega), fun i => self_swap _ _ _, fun i => Arr.get_upd _ _ _ _, rfl⟩
  · rw [if_pos hq]
    have h0 : s.edge.get (s.block.get p) ≠ 0 := fun g => by rw [g] at heq; omega
    obtain ⟨ch, pa, sn, e, I, hsn, hch, hpa', hsn'⟩ := swap_ok hn h hp (by omega) h0 heq
    have bq : s.block.get (s.edge.get (s.block.get p)) = s.block.get p := B.same _ _ (by omega) hp heq
    have e' : ∀ k : Dyn → G (Nat × Dyn), (rd s.child p >>= fun r => rd s.child (s.edge.get (s.block.get p)) >>= fun t => wr s.child p t >>= fun ch =>
        wr ch (s.edge.get (s.block.get p)) r >>= fun ch => setPar r (s.edge.get (s.block.get p)) { s with child := ch } >>= fun s => setPar t p s >>= k) =
        k { s with child := ch, parent := pa, sNode := sn } := by
      intro k
      rw [← ok_bind (f := k), ← e]
      simp only [bind_assoc]
    rw [e']
    obtain ⟨q, hqd⟩ : ∃ q, q = s.edge.get (s.block.get p) := ⟨_, rfl⟩
    rw [← hqd] at heq hle hq h0 bq hsn hch I ⊢
    have hq1 : q + 1 ≤ p := by omega
    have m1 := mono q (q + 1) (by omega) (by omega)
    have m2 := mono (q + 1) p hq1 hp
    obtain ⟨bl, ed, av, ej, z1, z2, B', K'⟩ := incJoin_ok (s := { s with child := ch, parent := pa, sNode := sn }) (p := q)
      I.sz I.block mono (by omega) (by omega) (by omega) (by simp only []; rw [bq]; exact hqd.symm) (by simp only []; omega) h.cap
    simp only [bq] at ej
    have ej' : ∀ k : Dyn → G (Nat × Dyn), (edgeInc (s.block.get p) { s with child := ch, parent := pa, sNode := sn } >>=
        fun s => incJoin q s >>= k) = k { s with
          child := ch, parent := pa, sNode := sn, freq := s.freq.upd q (s.freq.get q + 1), block := bl, edge := ed, avail := av } := by
      intro k
      rw [← ok_bind (f := k), ← ej]
      simp only [bind_assoc]
    rw [ej']
    obtain ⟨i1, i0, i2⟩ := inc_leader (s' := { s with
        child := ch, parent := pa, sNode := sn, freq := s.freq.upd q (s.freq.get q + 1), block := bl, edge := ed, avail := av })
        hn1 hn I (by omega) (by omega) (by simp only []; rw [bq]; exact hqd.symm)
        ⟨I.sz.child, I.sz.parent, z1, z2, hs.stock, I.sz.sNode, by simp [hs.freq]⟩ rfl rfl rfl rfl B'
    have := I.sz.parent
    simp only [] at this
    rw [rd_ok (by simp only []; rw [this]; omega), ok_bind]
    simp only [] at i0 i1 i2
    refine ⟨_, _, rfl, by simp only []; omega, i0, i2.congr ?_, ⟨rfl, rfl, Arr.get_upd_ne _ _ _ _ (by omega),
      fun i hi => by rw [hch, if_neg (by omega), if_neg (by omega)], hpa', fun i hi => Arr.get_upd_ne _ _ _ _ (by omega), hsn',
      ⟨rfl, rfl, rfl, rfl⟩, K'⟩, q, by omega, hle, heq,
      B.edge_lt p (q - 1) hp (by omega) |> fun g => by omega, hch, fun i => Arr.get_upd _ _ _ _, rfl⟩
    intro c hc
    have := hsn c hc
    by_cases g : sn.get c = q
    · rw [if_pos g, if_pos (this.1 g)]
    · rw [if_neg g, if_neg (fun g' => g (this.2 g'))]

theorem DynInv.not_leaf {n d : Nat} {w : Nat → Nat} {s : Dyn} (h : DynInv n d w s) (hn : n ≤ 314) {x k : Nat} (hk : k < n)
    (hx : s.child.get x = 2 * k) {c : Nat} (hc : c < n) : s.sNode.get c ≠ x := by
  intro e
  have := (h.tree.owner (65535 - c) (Or.inl ⟨c, hc, rfl⟩)).2
  unfold ownF at this
  rw [if_pos (by omega), show 65535 - (65535 - c) = c from by omega, e, hx] at this
  omega

/-- From an inner node upwards. -/
theorem ucLoop_inner {n : Nat} {w : Nat → Nat} (hn1 : 2 ≤ n) (hn : n ≤ 314) (f : Nat) : ∀ (p : Nat) (s : Dyn), DynInv n p w s →
    (∃ k, 1 ≤ k ∧ k < n ∧ s.child.get p = 2 * k) → 1 ≤ p → p < 2 * n - 1 → p ≤ f →
    ∃ s', ucLoop f p s = .ok s' ∧ DynInv n 0 w s' ∧ Keep n s s' := by
  induction f with
  | zero => intro p s h hk h1 hp hf; omega
  | succ f ih =>
    intro p s h hk h1 hp hf
    obtain ⟨x, s', e, hx, hk', I, a1, _⟩ := swapInc_ok hn1 hn h h1 hp
    obtain ⟨k, k1, k2, k3⟩ := hk
    have I' : DynInv n x w s' := I.congr fun c hc => by rw [if_neg (h.not_leaf hn k2 k3 hc)]; rfl
    rw [ucLoop, e, ok_bind]
    simp only []
    by_cases h0 : x = 0
    · rw [if_pos h0]
      exact ⟨s', rfl, h0 ▸ I', a1⟩
    · rw [if_neg h0]
      obtain ⟨s'', e', J, b1⟩ := ih x s' I' hk' (by omega) (by omega) (by omega)
      exact ⟨s'', e', J, a1.trans b1⟩

/-- From a node upwards. -/
theorem ucLoop_ok {n : Nat} {w : Nat → Nat} (hn1 : 2 ≤ n) (hn : n ≤ 314) {f p : Nat} {s : Dyn} (h : DynInv n p w s)
    (h1 : 1 ≤ p) (hp : p < 2 * n - 1) (hf : p ≤ f) :
    ∃ s', ucLoop f p s = .ok s' ∧ DynInv n 0 (fun c => w c + if s.sNode.get c = p then 1 else 0) s' ∧ Keep n s s' := by
  obtain ⟨f, rfl⟩ : ∃ g, f = g + 1 := ⟨f - 1, by omega⟩
  obtain ⟨x, s', e, hx, hk', I, a1, _⟩ := swapInc_ok hn1 hn h h1 hp
  rw [ucLoop, e, ok_bind]
  simp only []
  by_cases h0 : x = 0
  · rw [if_pos h0]
    exact ⟨s', rfl, h0 ▸ I, a1⟩
  · rw [if_neg h0]
    obtain ⟨s'', e', J, b1⟩ := ucLoop_inner hn1 hn f x s' I hk' (by omega) (by omega) (by omega)
    exact ⟨s'', e', J, a1.trans b1⟩

theorem leads_iff {f g : Nat → Nat} {N : Nat} (h : ∀ i, 1 ≤ i → i < N → (f i = f (i - 1) ↔ g i = g (i - 1))) :
    leads f N = leads g N := by
  induction N with
  | zero => rfl
  | succ N ih =>
    rw [leads, leads, ih (fun i h1 hi => h i h1 (by omega))]
    by_cases h0 : N = 0
    · simp [h0]
    · have := h N (by omega) (by omega)
      simp [h0, this]

theorem leads_root {N : Nat} {freq freq' : Nat → Nat} (hr : ∀ i, 1 ≤ i → i < N → freq i < freq 0)
    (hf : ∀ i, freq' i = if i = 0 then freq 0 + 1 else freq i) : leads freq N = leads freq' N := by
  have hne : ∀ i, 1 ≤ i → freq' i = freq i := fun i hi => by rw [hf]; exact if_neg (by omega)
  have h0 : freq' 0 = freq 0 + 1 := by rw [hf]; exact if_pos rfl
  apply leads_iff
  intro i hi1 hi
  rw [hne i (by omega)]
  by_cases a : i - 1 = 0
  · rw [a, h0]
    have := hr i (by omega) hi
    omega
  · rw [hne _ (by omega)]

/-- One more at the root, which stands alone. -/
theorem BlockF.root {N : Nat} {block edge stock freq freq' : Nat → Nat} {avail : Nat}
    (B : BlockF N block edge stock avail freq) (hr : ∀ i, 1 ≤ i → i < N → freq i < freq 0)
    (hf : ∀ i, freq' i = if i = 0 then freq 0 + 1 else freq i) : BlockF N block edge stock avail freq' := by
  have hne : ∀ i, 1 ≤ i → freq' i = freq i := fun i hi => by rw [hf]; exact if_neg (by omega)
  have h0 : freq' 0 = freq 0 + 1 := by rw [hf]; exact if_pos rfl
  have e0 : ∀ i, i < N → edge (block i) = 0 → i = 0 := by
    intro i hi h
    by_contra g
    have := B.edge_eq i hi
    rw [h] at this
    have := hr i (by omega) hi
    omega
  refine ⟨B.blk, ?_, B.edge_le, ?_, ?_, B.free, B.inj, ?_, B.pad⟩
  · intro i j hi hj h
    by_cases a : i = 0
    · by_cases b : j = 0
      · rw [a, b]
      · rw [a, h0, hne j (by omega)] at h
        have := hr j (by omega) hj
        omega
    · by_cases b : j = 0
      · rw [b, h0, hne i (by omega)] at h
        have := hr i (by omega) hi
        omega
      · rw [hne i (by omega), hne j (by omega)] at h
        exact B.same i j hi hj h
  · intro i hi
    by_cases a : i = 0
    · have := B.edge_le i hi
      rw [show edge (block i) = i from by omega]
    · have := e0 i hi
      rw [hne _ (by omega), hne i (by omega), B.edge_eq i hi]
  · intro i j hi hj
    have := B.edge_lt i j hi hj
    have le := B.edge_le i hi
    rw [hne i (by omega)]
    by_cases a : j = 0
    · rw [a, h0]; rw [a] at this; omega
    · rw [hne j (by omega)]; exact this
  · rw [← leads_root hr hf]; exact B.cnt

theorem WeightF.root_lt' {n : Nat} {child parent sNode freq : Nat → Nat} (T : TreeF n child parent sNode) (hn1 : 2 ≤ n)
    (W : WeightF n 0 child freq) {i : Nat} (hi1 : 1 ≤ i) (hi : i < 2 * n - 1) : freq i < freq 0 := by
  have h := W.sum 0 1 (by omega) (by omega) (by omega) (T.root hn1)
  rw [if_pos rfl] at h
  have := W.mono 1 i hi1 hi
  simp only [Nat.mul_one, show 2 - 1 = 1 from rfl] at h
  have := W.pos 2 (by omega)
  omega

/-- The tree between two symbols. -/
structure DynOk (n : Nat) (w : Nat → Nat) (s : Dyn) : Prop where
  inv : DynInv n 0 w s
  size : s.nMax = n
  cap : s.freq.get 0 ≤ 32768

/-- The root counts one more; the leaf of `c` lacks one. -/
theorem DynOk.ahead {n : Nat} {w : Nat → Nat} (hn1 : 2 ≤ n) (hn : n ≤ 314) {c : Nat} {s : Dyn} (h : DynOk n w s) (hc : c < n)
    (hlt : s.freq.get 0 < 32768) : DynInv n (s.sNode.get c) w { s with freq := s.freq.upd 0 (s.freq.get 0 + 1) } := by
  have hs := h.inv.sz
  have own := h.inv.tree.owner (65535 - c) (Or.inl ⟨c, hc, rfl⟩)
  unfold ownF at own
  rw [if_pos (by omega), show 65535 - (65535 - c) = c from by omega] at own
  have hr := h.inv.tree.root hn1
  have hf : ∀ i, (s.freq.upd 0 (s.freq.get 0 + 1)).get i = if i = 0 then s.freq.get 0 + 1 else s.freq.get i :=
    fun i => by rw [Arr.get_upd]
  have hrt : ∀ i, 1 ≤ i → i < 2 * n - 1 → s.freq.get i < s.freq.get 0 :=
    fun i a b => WeightF.root_lt' h.inv.tree hn1 h.inv.weight a b
  refine ⟨⟨hs.child, hs.parent, hs.block, hs.edge, hs.stock, hs.sNode, by simp [hs.freq]⟩, h.inv.tree, ⟨?_, ?_, ?_⟩,
    h.inv.block.root hrt hf, ?_, ?_⟩
  · intro i j hij hj
    simp only [hf]
    have := h.inv.weight.mono i j hij hj
    split <;> split
    · omega
    · rename_i a b; rw [a] at hij; omega
    · rename_i a b; rw [b] at this; omega
    · exact this
  · intro i hi
    simp only [hf]
    have := h.inv.weight.pos i hi
    split <;> omega
  · intro i k hi k1 k2 e
    have := h.inv.weight.sum i k hi k1 k2 e
    have g1 : i ≠ s.sNode.get c := fun g => by rw [g, own.2] at e; omega
    simp only [hf]
    rw [if_neg (show ¬ (2 * k = 0) by omega), if_neg (show ¬ (2 * k - 1 = 0) by omega), if_neg g1]
    by_cases a : i = 0
    · simp only [if_pos a] at this ⊢
      rw [a] at this
      omega
    · simp only [if_neg a] at this ⊢
      omega
  · simp only [hf, if_true]; omega
  · intro a ha
    simp only [hf]
    have own' := h.inv.tree.owner (65535 - a) (Or.inl ⟨a, ha, rfl⟩)
    unfold ownF at own'
    rw [if_pos (by omega), show 65535 - (65535 - a) = a from by omega] at own'
    rw [if_neg (fun g => by rw [g, hr] at own'; omega)]
    exact h.inv.leafw a ha

/-- `updateC` without the rebuilding. -/
theorem updateC_plain {n : Nat} {w : Nat → Nat} (hn1 : 2 ≤ n) (hn : n ≤ 314) {c : Nat} {s : Dyn} (h : DynOk n w s) (hc : c < n)
    (hlt : s.freq.get 0 < 32768) :
    ∃ s', updateC c s = .ok s' ∧ DynOk n (fun a => w a + if a = c then 1 else 0) s' ∧ s'.n1 = s.n1 ∧ DynFrame n s s' := by
  have hs := h.inv.sz
  have own := h.inv.tree.owner (65535 - c) (Or.inl ⟨c, hc, rfl⟩)
  unfold ownF at own
  rw [if_pos (by omega), show 65535 - (65535 - c) = c from by omega] at own
  have hr := h.inv.tree.root hn1
  have hp1 : s.sNode.get c ≠ 0 := fun e => by rw [e, hr] at own; omega
  unfold updateC
  rw [rd_ok (by rw [hs.freq]; omega), ok_bind, if_neg (by omega), ok_bind, rd_ok (by rw [hs.freq]; omega), ok_bind,
    wr_ok (by rw [hs.freq]; omega), ok_bind, rd_ok (by rw [hs.sNode]; omega), ok_bind, Nat.mod_eq_of_lt (by omega)]
  have hf : ∀ i, (s.freq.upd 0 (s.freq.get 0 + 1)).get i = if i = 0 then s.freq.get 0 + 1 else s.freq.get i :=
    fun i => by rw [Arr.get_upd]
  have I := h.ahead hn1 hn hc hlt
  obtain ⟨s', e, J, b1⟩ := ucLoop_ok hn1 hn (f := 1000) I (by omega) own.1 (by omega)
  rw [e]
  have k1 := b1.nMax
  have k2 := b1.n1
  have k3 := b1.root
  simp only [hf, if_true] at k1 k2 k3
  have F : DynFrame n s { s with freq := s.freq.upd 0 (s.freq.get 0 + 1) } :=
    ⟨fun _ _ => rfl, fun _ _ => rfl, fun i hi => Arr.get_upd_ne _ _ _ _ (by omega), fun _ _ => rfl, ⟨rfl, rfl, rfl, rfl⟩, fun _ _ => rfl, fun b hb => ⟨rfl, hb⟩,
      congrArg (s.avail + ·) (leads_root (freq := s.freq.get) (fun _ h1 h2 => WeightF.root_lt' h.inv.tree hn1 h.inv.weight h1 h2) hf)⟩
  refine ⟨s', rfl, ⟨J.congr ?_, by rw [k1, h.size], by omega⟩, k2, F.trans b1.frame⟩
  intro a ha
  simp only []
  have own' := (h.inv.tree.owner (65535 - a) (Or.inl ⟨a, ha, rfl⟩)).2
  unfold ownF at own'
  rw [if_pos (by omega), show 65535 - (65535 - a) = a from by omega] at own'
  by_cases g : a = c
  · rw [g]; simp
  · rw [if_neg g, if_neg (fun g' => by rw [g'] at own'; omega)]

end Lha
