import Verif.Proof.PTree
import Verif.Proof.PSprout
import Verif.Spec.Lh2
/-!
# The distance tree of lh2 gets a new leaf
-/

namespace Lha

open Spec

/-- The state in `makeNewNode` when the new leaf has been counted, but not yet the nodes above it. -/
structure Sprout (m : Nat) (s S : Dyn) : Prop where
  sz : DynSz S
  child : ∀ i, S.child.get i = if i = s.mostP then s.mostP + 2 else if i = s.mostP + 2 then 65535 - (m + 314) else if i = s.mostP + 1 then s.child.get s.mostP
    else s.child.get i
  parent : ∀ i, S.parent.get i = if i = s.mostP + 1 then s.mostP else if i = s.mostP + 2 then s.mostP else s.parent.get i
  sNode : ∀ c, S.sNode.get c = if c = m + 314 then s.mostP + 2 else if c = 65535 - s.child.get s.mostP then s.mostP + 1 else s.sNode.get c
  freq : ∀ i, S.freq.get i = if i = 628 ∧ s.mostP = 628 then 65535 else if i = s.mostP + 2 then 1 else if i = s.mostP + 1 then s.freq.get s.mostP else s.freq.get i
  block : ∀ i, S.block.get i = if i = s.mostP + 2 then (if s.freq.get s.mostP = 1 then s.block.get s.mostP else s.stock.get s.avail) else
    if i = s.mostP + 1 then s.block.get s.mostP else s.block.get i
  edge : ∀ i, S.edge.get i = if i = s.stock.get s.avail then s.mostP + 2 else if i = s.block.get 628 ∧ s.mostP = 628 then s.edge.get i + 1 else s.edge.get i
  stock : ∀ a, S.stock.get a = s.stock.get a
  avail : S.avail = if s.freq.get s.mostP = 1 then s.avail else s.avail + 1
  mostP : S.mostP = s.mostP + 2
  totalP : S.totalP = s.totalP
  nMax : S.nMax = s.nMax
  n1 : S.n1 = s.n1
  nn : S.nn = s.nn
  next : S.nextcount = s.nextcount

theorem makeNewNode_pre {m : Nat} {s : Dyn} (hs : DynSz s) (hm : m ≤ 127) (h0 : 628 ≤ s.mostP) (h1 : s.mostP ≤ 880) (hc : 65535 - s.child.get s.mostP < 442)
    (ha : s.avail < 628) (hb : s.stock.get s.avail < 884) (hb1 : 1 ≤ s.stock.get s.avail) (hbb : s.block.get s.mostP < 884)
    (he : s.mostP = 628 → s.edge.get (s.block.get 628) < 60000)
    (hpad : s.block.get (s.mostP + 3) = 0) (ht : s.totalP < 32768) :
    ∃ S, Sprout m s S ∧ makeNewNode m s = upLoop 999 s.mostP S >>= fun s => .ok { s with totalP := (s.totalP + 1) % 65536 } := by
  unfold makeNewNode
  simp only []
  rw [rd_ok (by rw [hs.child]; omega), ok_bind, wr_ok (by rw [hs.child]; omega), ok_bind, wr_ok (by rw [hs.sNode]; omega), ok_bind,
    wr_ok (by rw [Arr.size_upd, hs.child]; omega), ok_bind, wr_ok (by rw [Arr.size_upd, Arr.size_upd, hs.child]; omega), ok_bind,
    rd_ok (by rw [hs.freq]; omega), ok_bind, wr_ok (by rw [hs.freq]; omega), ok_bind, wr_ok (by rw [Arr.size_upd, hs.freq]; omega), ok_bind,
    rd_ok (by rw [hs.block]; omega), ok_bind, wr_ok (by rw [hs.block]; omega), ok_bind]
  have mid : ∃ fr ed, (if s.mostP = 628 then do
      let fr ← wr ((s.freq.upd (s.mostP + 1) (s.freq.get s.mostP)).upd (s.mostP + 1 + 1) 0) 628 0xffff
      let b ← rd (s.block.upd (s.mostP + 1) (s.block.get s.mostP)) 628
      edgeInc b { s with
        child := ((s.child.upd (s.mostP + 1) (s.child.get s.mostP)).upd (s.mostP + 1 + 1) (65535 - (m + 314))).upd s.mostP (s.mostP + 1 + 1),
        sNode := s.sNode.upd (65535 - s.child.get s.mostP) (s.mostP + 1), freq := fr, block := s.block.upd (s.mostP + 1) (s.block.get s.mostP) }
      else .ok { s with
        child := ((s.child.upd (s.mostP + 1) (s.child.get s.mostP)).upd (s.mostP + 1 + 1) (65535 - (m + 314))).upd s.mostP (s.mostP + 1 + 1),
        sNode := s.sNode.upd (65535 - s.child.get s.mostP) (s.mostP + 1), freq := (s.freq.upd (s.mostP + 1) (s.freq.get s.mostP)).upd (s.mostP + 1 + 1) 0,
        block := s.block.upd (s.mostP + 1) (s.block.get s.mostP) } : G Dyn) = .ok { s with
        child := ((s.child.upd (s.mostP + 1) (s.child.get s.mostP)).upd (s.mostP + 1 + 1) (65535 - (m + 314))).upd s.mostP (s.mostP + 1 + 1),
        sNode := s.sNode.upd (65535 - s.child.get s.mostP) (s.mostP + 1), freq := fr, block := s.block.upd (s.mostP + 1) (s.block.get s.mostP), edge := ed } ∧
      fr.size = 884 ∧ ed.size = 884 ∧
      (∀ i, fr.get i = if i = 628 ∧ s.mostP = 628 then 65535 else if i = s.mostP + 2 then 0 else if i = s.mostP + 1 then s.freq.get s.mostP else s.freq.get i) ∧
      (∀ i, ed.get i = if i = s.block.get 628 ∧ s.mostP = 628 then s.edge.get i + 1 else s.edge.get i) := by
    by_cases g : s.mostP = 628
    · have e := he g
      rw [if_pos g, wr_ok (by simp [hs.freq]), ok_bind, rd_ok (by simp [hs.block]), ok_bind, Arr.get_upd_ne _ _ _ _ (by omega)]
      have z : DynSz { s with
        child := ((s.child.upd (s.mostP + 1) (s.child.get s.mostP)).upd (s.mostP + 1 + 1) (65535 - (m + 314))).upd s.mostP (s.mostP + 1 + 1),
        sNode := s.sNode.upd (65535 - s.child.get s.mostP) (s.mostP + 1),
        freq := ((s.freq.upd (s.mostP + 1) (s.freq.get s.mostP)).upd (s.mostP + 1 + 1) 0).upd 628 0xffff,
        block := s.block.upd (s.mostP + 1) (s.block.get s.mostP) } :=
        ⟨by simp [hs.child], hs.parent, by simp [hs.block], hs.edge, hs.stock, by simp [hs.sNode], by simp [hs.freq]⟩
      refine ⟨_, _, edgeInc_ok z (by rw [← g]; exact hbb) (by simp only []; omega), z.freq, by simp [hs.edge], ?_, ?_⟩
      · intro i
        simp only [Arr.get_upd]
        by_cases g1 : i = 628
        · rw [if_pos g1, if_pos ⟨g1, g⟩]
        · rw [if_neg g1, if_neg (fun h : i = 628 ∧ s.mostP = 628 => g1 h.1)]
      · intro i
        simp only [Arr.get_upd]
        by_cases g1 : i = s.block.get 628
        · rw [if_pos g1, if_pos ⟨g1, g⟩, g1]
        · rw [if_neg g1, if_neg (fun h => g1 h.1)]
    · rw [if_neg g]
      refine ⟨_, _, rfl, by simp [hs.freq], hs.edge, ?_, ?_⟩
      · intro i
        simp only [Arr.get_upd]
        rw [if_neg (fun h : i = 628 ∧ s.mostP = 628 => g h.2)]
      · intro i
        rw [if_neg (fun h => g h.2)]
  obtain ⟨fr, ed, e1, z1, z2, hfr, hed⟩ := mid
  rw [e1, ok_bind, wr_ok (by rw [hs.parent]; omega), ok_bind, wr_ok (by rw [Arr.size_upd, hs.parent]; omega), ok_bind,
    wr_ok (by rw [Arr.size_upd, hs.sNode]; omega), ok_bind]
  rw [newBlock_ok (s := { s with
      child := ((s.child.upd (s.mostP + 1) (s.child.get s.mostP)).upd (s.mostP + 1 + 1) (65535 - (m + 314))).upd s.mostP (s.mostP + 1 + 1),
      sNode := (s.sNode.upd (65535 - s.child.get s.mostP) (s.mostP + 1)).upd (m + 314) (s.mostP + 1 + 1), freq := fr,
      block := s.block.upd (s.mostP + 1) (s.block.get s.mostP), edge := ed, mostP := s.mostP + 1 + 1,
      parent := (s.parent.upd (s.mostP + 1 + 1) s.mostP).upd (s.mostP + 1) s.mostP })
    ⟨by simp [hs.child], by simp [hs.parent], by simp [hs.block], z2, hs.stock, by simp [hs.sNode], z1⟩ (by omega) (by simp only []; omega) hb, ok_bind]
  unfold updateP
  simp only []
  rw [if_neg (by omega), ok_bind, rd_ok (by simp [hs.sNode]; omega), ok_bind, Arr.get_upd, if_pos rfl,
    upLoop, if_neg (by omega)]
  unfold swapInc
  simp only []
  rw [rd_ok (by simp [hs.block]; omega), ok_bind, Arr.get_upd, if_pos rfl, rd_ok (by simp [z2]; omega), ok_bind, Arr.get_upd, if_pos rfl,
    if_neg (by simp), rd_ok (by simp [hs.block]; omega), ok_bind, Arr.get_upd_ne _ _ _ _ (by omega), Arr.get_upd_ne _ _ _ _ (by omega),
    show s.mostP + 1 + 1 + 1 = s.mostP + 3 from rfl, hpad, if_neg (by omega)]
  unfold incAlone
  simp only []
  rw [rd_ok (by rw [z1]; omega), ok_bind, wr_ok (by rw [z1]; omega), ok_bind, if_neg (by omega), rd_ok (by simp [z1]; omega), ok_bind]
  have q0 : fr.get (s.mostP + 1 + 1) = 0 := by rw [hfr, if_neg (by omega), if_pos rfl]
  have q1 : fr.get (s.mostP + 1) = s.freq.get s.mostP := by rw [hfr, if_neg (by omega), if_neg (by omega), if_pos rfl]
  rw [q0, show s.mostP + 1 + 1 - 1 = s.mostP + 1 from rfl, Arr.get_upd_ne _ _ _ _ (by omega), q1]
  have hch : ∀ i, (((s.child.upd (s.mostP + 1) (s.child.get s.mostP)).upd (s.mostP + 1 + 1) (65535 - (m + 314))).upd s.mostP (s.mostP + 1 + 1)).get i =
      if i = s.mostP then s.mostP + 2 else if i = s.mostP + 2 then 65535 - (m + 314) else if i = s.mostP + 1 then s.child.get s.mostP else s.child.get i := by
    intro i
    simp only [Arr.get_upd]
  have hpa : ∀ i, ((s.parent.upd (s.mostP + 1 + 1) s.mostP).upd (s.mostP + 1) s.mostP).get i =
      if i = s.mostP + 1 then s.mostP else if i = s.mostP + 2 then s.mostP else s.parent.get i := by
    intro i
    simp only [Arr.get_upd]
  have hsn : ∀ c, ((s.sNode.upd (65535 - s.child.get s.mostP) (s.mostP + 1)).upd (m + 314) (s.mostP + 1 + 1)).get c =
      if c = m + 314 then s.mostP + 2 else if c = 65535 - s.child.get s.mostP then s.mostP + 1 else s.sNode.get c := by
    intro i
    simp only [Arr.get_upd]
  have hfr' : ∀ i, (fr.upd (s.mostP + 1 + 1) ((0 + 1) % 65536)).get i = if i = 628 ∧ s.mostP = 628 then 65535 else if i = s.mostP + 2 then 1 else
      if i = s.mostP + 1 then s.freq.get s.mostP else s.freq.get i := by
    intro i
    rw [Arr.get_upd, hfr]
    by_cases g : i = s.mostP + 2
    · rw [if_pos g, if_neg (by omega), if_pos g]
    · rw [if_neg g, if_neg g, if_neg g]
  have hed' : ∀ i, (ed.upd (s.stock.get s.avail) (s.mostP + 1 + 1)).get i = if i = s.stock.get s.avail then s.mostP + 2 else
      if i = s.block.get 628 ∧ s.mostP = 628 then s.edge.get i + 1 else s.edge.get i := by
    intro i
    rw [Arr.get_upd, hed]
  by_cases g : s.freq.get s.mostP = 1
  · rw [if_pos (by omega), if_neg (by omega), wr_ok (by rw [hs.stock]; omega), ok_bind, rd_ok (by simp [hs.block]; omega), ok_bind, wr_ok (by simp [hs.block]; omega), ok_bind]
    rw [ok_bind, rd_ok (by simp [hs.parent]; omega), ok_bind, hpa, if_neg (by omega), if_pos rfl, ok_bind]
    refine ⟨_, ?_, rfl⟩
    refine ⟨?_, hch, hpa, hsn, hfr', ?_, hed', ?_, ?_, rfl, rfl, rfl, rfl, rfl, rfl⟩
    · exact ⟨by simp [hs.child], by simp [hs.parent], by simp [hs.block], by simp [z2], by simp [hs.stock], by simp [hs.sNode], by simp [z1]⟩
    · intro i
      simp only [Arr.get_upd]
      by_cases g1 : i = s.mostP + 2
      · rw [if_pos g1, if_pos g1, if_pos g, if_neg (by omega), if_pos True.intro]
      · rw [if_neg g1, if_neg g1, if_neg g1]
    · intro a
      simp only [Arr.get_upd, Nat.add_sub_cancel]
      split
      · rename_i e; rw [e]
      · rfl
    · simp only [Nat.add_sub_cancel]; rw [if_pos g]
  · rw [if_neg (by omega)]
    rw [ok_bind, rd_ok (by simp [hs.parent]; omega), ok_bind, hpa, if_neg (by omega), if_pos rfl, ok_bind]
    refine ⟨_, ?_, rfl⟩
    refine ⟨?_, hch, hpa, hsn, hfr', ?_, hed', fun _ => rfl, ?_, rfl, rfl, rfl, rfl, rfl, rfl⟩
    · exact ⟨by simp [hs.child], by simp [hs.parent], by simp [hs.block], by simp [z2], by simp [hs.stock], by simp [hs.sNode], by simp [z1]⟩
    · intro i
      simp only [Arr.get_upd]
      by_cases g1 : i = s.mostP + 2
      · rw [if_pos g1, if_pos g1, if_neg g]
      · rw [if_neg g1, if_neg g1]
    · simp only []; rw [if_neg g]

/-- The view with a new leaf, as soon as the leaf itself has been counted. -/
def sproutV (m : Nat) (v : Dyn) : Dyn :=
  { v with
    child := ((v.child.upd (2 * m - 1) (v.child.get (2 * m - 2))).upd (2 * m) (65535 - m)).upd (2 * m - 2) (2 * m)
    parent := (v.parent.upd (2 * m) (2 * m - 2)).upd (2 * m - 1) (2 * m - 2)
    sNode := (v.sNode.upd (65535 - v.child.get (2 * m - 2)) (2 * m - 1)).upd m (2 * m)
    freq := ((v.freq.upd (2 * m - 1) (v.freq.get (2 * m - 2))).upd (2 * m) 1).upd 0 (v.freq.get 0 + 1)
    block := (v.block.upd (2 * m - 1) (v.block.get (2 * m - 2))).upd (2 * m)
      (if v.freq.get (2 * m - 2) = 1 then v.block.get (2 * m - 2) else v.stock.get v.avail)
    edge := v.edge.upd (v.stock.get v.avail) (2 * m)
    avail := if v.freq.get (2 * m - 2) = 1 then v.avail else v.avail + 1
    nMax := m + 1 }

variable {m : Nat} {s v : Dyn} {K : Nat → Prop}

theorem sproutV_sz (h : DynSz v) : DynSz (sproutV m v) :=
  ⟨by simp [sproutV, h.child], by simp [sproutV, h.parent], by simp [sproutV, h.block], by simp [sproutV, h.edge], h.stock, by simp [sproutV, h.sNode], by simp [sproutV, h.freq]⟩

theorem sproutV_block (hm1 : 2 ≤ m) {i : Nat} (i1 : i < 2 * m + 1) :
    (sproutV m v).block.get i = v.stock.get v.avail ∨ ∃ j, j < 2 * m - 1 ∧ (1 ≤ i → 1 ≤ j) ∧ (sproutV m v).block.get i = v.block.get j := by
  unfold sproutV
  simp only [Arr.get_upd]
  by_cases g : i = 2 * m
  · rw [if_pos g]
    by_cases g1 : v.freq.get (2 * m - 2) = 1
    · rw [if_pos g1]; exact Or.inr ⟨2 * m - 2, by omega, by omega, rfl⟩
    · rw [if_neg g1]; exact Or.inl rfl
  · rw [if_neg g]
    by_cases g2 : i = 2 * m - 1
    · rw [if_pos g2]; exact Or.inr ⟨2 * m - 2, by omega, by omega, rfl⟩
    · rw [if_neg g2]; exact Or.inr ⟨i, by omega, id, rfl⟩

theorem sproutV_view {S : Dyn} {w : Nat → Nat} (hm1 : 2 ≤ m) (hm : m ≤ 127) (V : View m s v) (I : DynInv m 0 w v) (hz : s.mostP = 2 * m - 2 + 628) (ha : v.avail < 628)
    (P : Sprout m s S) : View (m + 1) S (sproutV m v) := by
  obtain ⟨cz, z1, z2⟩ := I.tree.last (by omega) (by omega)
  have cs : s.child.get (2 * m - 2 + 628) = 65535 - cz - 314 := by rw [V.child _ (by omega), z2, psi_leaf (by omega)]
  have fz := V.freq (2 * m - 2) (by omega) (by omega)
  have bz := V.block (2 * m - 2) (by omega) (by omega)
  have es : s.stock.get s.avail = v.stock.get v.avail := by rw [V.avail, V.stock _ ha]
  refine ⟨P.sz, sproutV_sz V.vz, ?_, ?_, ?_, ?_, ?_, ?_, ?_, ?_, ?_⟩
  · intro i hi
    rw [P.child, hz]
    unfold sproutV
    simp only [Arr.get_upd]
    by_cases g1 : i = 2 * m - 2
    · rw [if_pos (by omega), if_pos g1, psi_pair (by omega)]; omega
    · rw [if_neg (by omega), if_neg g1]
      by_cases g2 : i = 2 * m
      · rw [if_pos (by omega), if_pos g2, psi_leaf (by omega)]; omega
      · rw [if_neg (by omega), if_neg g2]
        by_cases g3 : i = 2 * m - 1
        · rw [if_pos (by omega), if_pos g3, V.child _ (by omega)]
        · rw [if_neg (by omega), if_neg g3, V.child i (by omega)]
  · intro i i1 i2
    rw [P.parent, hz]
    unfold sproutV
    simp only [Arr.get_upd]
    by_cases g3 : i = 2 * m - 1
    · rw [if_pos (by omega), if_pos g3]
    · rw [if_neg (by omega), if_neg g3]
      by_cases g2 : i = 2 * m
      · rw [if_pos (by omega), if_pos g2]
      · rw [if_neg (by omega), if_neg g2, V.parent i i1 (by omega)]
  · intro c hc
    rw [P.sNode, hz, cs]
    unfold sproutV
    simp only [Arr.get_upd, z2]
    by_cases g1 : c = m
    · rw [if_pos (by omega), if_pos g1]; omega
    · rw [if_neg (by omega), if_neg g1]
      by_cases g2 : c = cz
      · rw [if_pos (by omega), if_pos (by omega)]; omega
      · rw [if_neg (by omega), if_neg (by omega), V.sNode c (by omega)]
  · intro i i1 i2
    rw [P.freq, hz, if_neg (by omega)]
    unfold sproutV
    simp only [Arr.get_upd]
    rw [if_neg (show ¬ i = 0 by omega)]
    by_cases g2 : i = 2 * m
    · rw [if_pos (by omega), if_pos g2]
    · rw [if_neg (by omega), if_neg g2]
      by_cases g3 : i = 2 * m - 1
      · rw [if_pos (by omega), if_pos g3, fz]
      · rw [if_neg (by omega), if_neg g3, V.freq i i1 (by omega)]
  · rw [P.freq, hz, if_neg (by omega), if_neg (by omega), if_neg (by omega), V.root]
  · intro i i1 i2
    rw [P.block, hz, fz, bz, es]
    unfold sproutV
    simp only [Arr.get_upd]
    by_cases g2 : i = 2 * m
    · rw [if_pos (by omega), if_pos g2]
    · rw [if_neg (by omega), if_neg g2]
      by_cases g3 : i = 2 * m - 1
      · rw [if_pos (by omega), if_pos g3]
      · rw [if_neg (by omega), if_neg g3, V.block i i1 i2]
  · intro i i1 i2
    rw [P.edge, hz, es]
    have ed : ∀ b, (sproutV m v).edge.get b = if b = v.stock.get v.avail then 2 * m else v.edge.get b := fun b => by unfold sproutV; rw [Arr.get_upd]
    rw [ed]
    by_cases g : (sproutV m v).block.get i = v.stock.get v.avail
    · rw [if_pos g, if_pos g]; omega
    · rw [if_neg g, if_neg g, if_neg (by omega)]
      rcases sproutV_block (v := v) hm1 (i := i) (by omega) with h | ⟨j, j1, j2, j3⟩
      · exact absurd h g
      · rw [j3, V.edge j (j2 i1) j1]
  · intro a a1
    rw [P.stock]; exact V.stock a a1
  · rw [P.avail, hz, fz, V.avail]; rfl

theorem sproutV_inv {w : Nat → Nat} (hm1 : 2 ≤ m) (hm : m ≤ 127) (I : DynInv m 0 w v) (hcap : v.freq.get 0 ≤ 32768)
    (hav : v.avail + (2 * m - 1) + 2 ≤ 628 + leads v.freq.get (2 * m - 1)) (ha : v.avail < 628) (hpad : v.block.get (2 * m + 1) = 0) :
    DynInv (m + 1) (2 * m - 2) (fun c => (sproutV m v).freq.get ((sproutV m v).sNode.get c)) (sproutV m v) ∧
      leads (sproutV m v).freq.get (2 * m + 1) + v.avail = leads v.freq.get (2 * m - 1) + (sproutV m v).avail := by
  have hch : ∀ i, (sproutV m v).child.get i = if i = 2 * m - 2 then 2 * m else if i = 2 * m then 65535 - m else if i = 2 * m - 1 then v.child.get (2 * m - 2) else v.child.get i := by
    intro i; unfold sproutV; simp only [Arr.get_upd]
  have hfr : ∀ i, (sproutV m v).freq.get i = if i = 0 then v.freq.get 0 + 1 else if i = 2 * m then 1 else if i = 2 * m - 1 then v.freq.get (2 * m - 2) else v.freq.get i := by
    intro i; unfold sproutV; simp only [Arr.get_upd]
  have T := I.tree
  have hrt : ∀ i, 1 ≤ i → i < 2 * m - 1 → v.freq.get i < v.freq.get 0 := fun i a b => WeightF.root_lt' T hm1 I.weight a b
  have l0 := leads_root (N := 2 * m - 1) (freq := v.freq.get) (freq' := fun i => if i = 0 then v.freq.get 0 + 1 else v.freq.get i) hrt (fun i => rfl)
  have B := I.block.root (freq' := fun i => if i = 0 then v.freq.get 0 + 1 else v.freq.get i) hrt (fun i => rfl)
  have z0 : (if 2 * m - 1 - 1 = 0 then v.freq.get 0 + 1 else v.freq.get (2 * m - 1 - 1)) = v.freq.get (2 * m - 2) := by rw [if_neg (by omega)]; rfl
  have hf2 : ∀ i, (sproutV m v).freq.get i = if i = 2 * m - 1 + 1 then 1 else if i = 2 * m - 1 then (fun i => if i = 0 then v.freq.get 0 + 1 else v.freq.get i) (2 * m - 1 - 1) else
        (fun i => if i = 0 then v.freq.get 0 + 1 else v.freq.get i) i := by
    intro i
    simp only [z0]
    rw [hfr]
    by_cases g0 : i = 0
    · rw [if_pos g0, if_neg (by omega), if_neg (by omega), if_pos g0]
    · rw [if_neg g0, if_neg g0, show 2 * m - 1 + 1 = 2 * m by omega]
  have hl := leads_sprout (N := 2 * m - 1) (by omega) hf2
  simp only [z0] at hl
  rw [← l0] at hl
  refine ⟨⟨sproutV_sz I.sz, T.sprout (by omega) hm hch ?_ ?_, WeightF.sprout T I.weight hm1 hm hch hfr, ?_, ?_, fun c _ => rfl⟩, ?_⟩
  · intro i; unfold sproutV; simp only [Arr.get_upd]
  · intro i; unfold sproutV; simp only [Arr.get_upd]
  · have := B.sprout (freq' := (sproutV m v).freq.get) (block' := (sproutV m v).block.get) (edge' := (sproutV m v).edge.get) (stock' := (sproutV m v).stock.get)
      (avail' := (sproutV m v).avail) (by omega) ?_ ?_ (by rw [← l0]; exact hav) ha hf2 ?_ ?_ (fun _ _ => rfl) ?_ (by rw [show 2 * m - 1 + 2 = 2 * m + 1 by omega]; exact hpad)
    · rw [show 2 * (m + 1) - 1 = 2 * m - 1 + 2 by omega]; exact this
    · intro i hi
      simp only [z0]
      have := I.weight.mono i (2 * m - 2) (by omega) (by omega)
      split
      · rename_i g; rw [g] at this; omega
      · exact this
    · simp only [z0]; exact I.weight.pos _ (by omega)
    · intro i
      simp only [z0]
      unfold sproutV
      simp only [Arr.get_upd, show 2 * m - 1 + 1 = 2 * m by omega, show 2 * m - 1 - 1 = 2 * m - 2 by omega]
    · intro i
      unfold sproutV
      simp only [Arr.get_upd, show 2 * m - 1 + 1 = 2 * m by omega]
    · simp only [z0]; rfl
  · rw [hfr, if_pos rfl]; omega
  · rw [show 2 * m + 1 = 2 * m - 1 + 2 by omega, hl]
    unfold sproutV
    simp only []
    split <;> omega

/-- The new leaf is counted: the first step of the way up. -/
theorem count_sprout {t : Tree} {w : Nat → Nat} (hm1 : 2 ≤ m) (hm : m ≤ 127) (I : DynInv m 0 w v) (A : Agree m t v)
    (J : DynInv (m + 1) (2 * m - 2) (fun c => (sproutV m v).freq.get ((sproutV m v).sNode.get c)) (sproutV m v)) :
    ∃ t2, (t.sprout m).count (m + 1) m = t2.climb (m + 1) (2 * m + 1) (2 * m - 2) ∧ Ahead (m + 1) t2 (sproutV m v) := by
  obtain ⟨cz, z1, z2⟩ := I.tree.last (by omega) (by omega)
  have hpos := I.weight.pos (2 * m - 2) (by omega)
  have fz := A.freq (2 * m - 2) (by omega)
  have hl : leader (t.sprout m).freq (2 * m) = 2 * m := by
    obtain ⟨k, hk⟩ : ∃ k, 2 * m = k + 1 := ⟨2 * m - 1, by omega⟩
    have e : (t.sprout m).freq k ≠ (t.sprout m).freq (k + 1) := by
      unfold Tree.sprout
      simp only []
      rw [if_pos (by omega), if_neg (by omega), if_pos (by omega)]
      omega
    rw [hk, leader, if_neg e]
  have hnode : ∀ i, i < 2 * m + 1 → (t.sprout m).node i = nodeOf ((sproutV m v).child.get i) := by
    intro i hi
    unfold Tree.sprout sproutV
    simp only [Arr.get_upd]
    by_cases g1 : i = 2 * m - 2
    · rw [if_pos g1, if_pos g1]; unfold nodeOf; rw [if_neg (by omega)]; congr 1; omega
    · rw [if_neg g1, if_neg g1]
      by_cases g3 : i = 2 * m - 1
      · rw [if_pos g3, if_neg (by omega), if_pos g3, A.node _ (by omega)]
      · rw [if_neg g3]
        by_cases g2 : i = 2 * m
        · rw [if_pos g2, if_pos g2]; unfold nodeOf; rw [if_pos (by omega)]; congr 1; omega
        · rw [if_neg g2, if_neg g2, if_neg g3, A.node i (by omega)]
  have hprom : ∀ i, ((t.sprout m).promote (2 * m)).node i = (t.sprout m).node i := by
    intro i
    unfold Tree.promote
    simp only [hl]
    split
    · rename_i g; rw [g]
    · rfl
  have hchild : ∀ i, (sproutV m v).child.get i = if i = 2 * m - 2 then 2 * m else if i = 2 * m then 65535 - m else if i = 2 * m - 1 then v.child.get (2 * m - 2) else v.child.get i := by
    intro i; unfold sproutV; simp only [Arr.get_upd]
  refine ⟨(t.sprout m).promote (2 * m), ?_, ?_, ?_, ?_⟩
  · unfold Tree.count
    have p1 : place (t.sprout m).node (.leaf m) (2 * (m + 1) - 1) = 2 * m := by
      refine place_eq (by omega) ?_ ?_
      · rw [hnode _ (by omega), nodeOf_leaf (n := m + 1) (by omega) (by omega) (J.tree.node _ (by omega)).1, hchild, if_neg (by omega), if_pos rfl]
      · intro j hj ej
        rw [hnode _ (by omega), nodeOf_leaf (n := m + 1) (by omega) (by omega) (J.tree.node _ (by omega)).1] at ej
        exact J.tree.inj hj (by omega) (by rw [ej, hchild, if_neg (by omega), if_pos rfl])
    have p2 : place ((t.sprout m).promote (2 * m)).node (.pair ((leader (t.sprout m).freq (2 * m) + 1) / 2)) (2 * (m + 1) - 1) = 2 * m - 2 := by
      rw [hl, show (2 * m + 1) / 2 = m by omega]
      refine place_eq (by omega) ?_ ?_
      · rw [hprom, hnode _ (by omega), nodeOf_pair (n := m + 1) (by omega) (by omega) (J.tree.node _ (by omega)).1, hchild, if_pos rfl]
      · intro j hj ej
        rw [hprom, hnode _ (by omega), nodeOf_pair (n := m + 1) (by omega) (by omega) (J.tree.node _ (by omega)).1] at ej
        exact J.tree.inj hj (by omega) (by rw [ej, hchild, if_pos rfl])
    rw [p1, show 2 * (m + 1) = 2 * m + 1 + 1 by omega, Tree.climb, if_neg (by omega), p2]
  · intro i hi
    rw [hprom, hnode i (by omega)]
  · intro i i1 i2
    unfold Tree.promote
    simp only [hl]
    unfold Tree.sprout sproutV
    simp only [Arr.get_upd]
    rw [if_neg (show ¬ i = 0 by omega)]
    by_cases g2 : i = 2 * m
    · rw [if_pos g2, if_pos g2, if_neg (by omega), if_pos True.intro]
    · simp only [if_neg g2]
      by_cases g3 : i = 2 * m - 1
      · rw [if_pos g3, if_pos g3, fz]
      · rw [if_neg g3, if_neg g3, A.freq i (by omega)]
  · unfold Tree.promote
    simp only [hl]
    unfold Tree.sprout sproutV
    simp only [Arr.get_upd]
    rw [if_neg (by omega), if_neg (by omega), if_neg (by omega), if_pos True.intro, A.freq 0 (by omega)]

/-- `makeNewNode` when there are two leaves or more. -/
theorem makeNewNode_view {t : Tree} {w : Nat → Nat} (hm1 : 2 ≤ m) (hm : m ≤ 127) (V : View m s v) (h : DynOk m w v) (A : Agree m t v)
    (hlt : v.freq.get 0 < 32768) (ht : s.totalP < 32768) (hz : s.mostP = 2 * m - 2 + 628) (hpad : ∀ i, 2 * m - 1 ≤ i → i < 256 → v.block.get i = 0)
    (hav : v.avail + (2 * m - 1) + 2 ≤ 628 + leads v.freq.get (2 * m - 1)) (hK : ∀ b, K b → Away (2 * m - 1) b v.block.get v.stock.get v.avail) :
    ∃ s' v' w', makeNewNode m s = .ok s' ∧ View (m + 1) s' v' ∧ DynOk (m + 1) w' v' ∧ Agree (m + 1) ((t.sprout m).count (m + 1) m) v' ∧ OutsideP K s s' ∧
      s'.mostP = 2 * m + 628 ∧ s'.totalP = s.totalP + 1 ∧ (∀ i, 2 * m + 1 ≤ i → i < 256 → v'.block.get i = 0) ∧
      (∀ b, K b → Away (2 * m + 1) b v'.block.get v'.stock.get v'.avail) ∧
      v'.avail + leads v.freq.get (2 * m - 1) = v.avail + leads v'.freq.get (2 * m + 1) ∧ v'.freq.get 0 = v.freq.get 0 + 1 := by
  have I := h.inv
  obtain ⟨cz, z1, z2⟩ := I.tree.last (by omega) (by omega)
  have lle := leads_le v.freq.get (2 * m - 1)
  have ha : v.avail < 628 := by omega
  have fr := I.block.free v.avail (Nat.le_refl _) ha
  have es : s.stock.get s.avail = v.stock.get v.avail := by rw [V.avail, V.stock _ ha]
  have cs : s.child.get (2 * m - 2 + 628) = 65535 - cz - 314 := by rw [V.child _ (by omega), z2, psi_leaf (by omega)]
  have bz := V.block (2 * m - 2) (by omega) (by omega)
  have bz' := I.block.blk (2 * m - 2) (by omega)
  obtain ⟨S, P, e⟩ := makeNewNode_pre (m := m) V.sz hm (by omega) (by omega) (by rw [hz, cs]; omega) (by rw [V.avail]; exact ha) (by rw [es]; exact fr.2.1)
    (by rw [es]; exact fr.1) (by rw [hz, bz]; exact bz'.2) (by omega)
    (by rw [hz, show 2 * m - 2 + 628 + 3 = 2 * m + 1 + 628 by omega]
        by_cases g : 2 * m + 1 < 256
        · rw [V.block _ (by omega) g, hpad _ (by omega) g]
        · omega) ht
  have V2 := sproutV_view hm1 hm V I hz ha P
  obtain ⟨J, L⟩ := sproutV_inv hm1 hm I h.cap hav ha (hpad _ (by omega) (by omega))
  obtain ⟨t2, q1, q2⟩ := count_sprout hm1 hm I A J
  have hK2 : ∀ b, K b → Away (2 * (m + 1) - 1) b (sproutV m v).block.get (sproutV m v).stock.get (sproutV m v).avail := by
    intro b hb
    have k := hK b hb
    refine ⟨?_, ?_⟩
    · intro i hi
      rcases sproutV_block (v := v) hm1 (i := i) (by omega) with g | ⟨j, j1, _, j3⟩
      · rw [g]; exact k.2 _ (Nat.le_refl _) ha
      · rw [j3]; exact k.1 j j1
    · intro a a1 a2
      refine k.2 a ?_ a2
      have : v.avail ≤ (sproutV m v).avail := by unfold sproutV; simp only []; split <;> omega
      omega
  obtain ⟨s', v', e1, e2, V3, O3, S3⟩ := upLoop_view (K := K) (m := m + 1) (by omega) (by omega) 999 999 (2 * m - 2) S _ _ V2 J (by omega) (by omega) (by omega) (by omega) hK2
  obtain ⟨v'', e3, J', KK⟩ := ucLoop_inner (n := m + 1) (by omega) (by omega) 999 (2 * m - 2) _ J
    ⟨m, by omega, by omega, by unfold sproutV; simp only [Arr.get_upd]; rw [if_pos True.intro]⟩ (by omega) (by omega) (by omega)
  rw [e1] at e3
  cases e3
  have AA := ucLoop_spec (n := m + 1) (by omega) (by omega) 999 (2 * m - 2) (2 * m + 1) _ _ _ t2 J (by omega) (by omega) (by omega) q2 e1
  rw [← q1] at AA
  have k0 := KK.root
  have r0 : (sproutV m v).freq.get 0 = v.freq.get 0 + 1 := by unfold sproutV; simp only [Arr.get_upd]; rw [if_pos True.intro]
  rw [e, hz, e2, ok_bind]
  have z := V3.sz
  have tp : s'.totalP = s.totalP := by rw [S3.2, P.totalP]
  have O2 : OutsideP K s S := by
    refine ⟨?_, ?_, ?_, ?_, ?_, ?_, P.nMax, P.n1, P.nn, P.next⟩
    · intro i hi; rw [P.child, if_neg (by omega), if_neg (by omega), if_neg (by omega)]
    · intro i hi; rw [P.parent, if_neg (by omega), if_neg (by omega)]
    · intro i hi; rw [P.freq, if_neg (by omega), if_neg (by omega), if_neg (by omega)]
    · intro i hi; rw [P.block, if_neg (by omega), if_neg (by omega)]
    · intro c hc; rw [P.sNode, hz, cs, if_neg (by omega), if_neg (by omega)]
    · intro b hb
      rw [P.edge, es, if_neg (fun g => (hK b hb).2 _ (Nat.le_refl _) ha g.symm), if_neg (by omega)]
  have O := O2.trans O3
  refine ⟨_, v', _, rfl, ⟨⟨z.child, z.parent, z.block, z.edge, z.stock, z.sNode, z.freq⟩, V3.vz, V3.child, V3.parent, V3.sNode, V3.freq, V3.root, V3.block, V3.edge, V3.stock, V3.avail⟩,
    ⟨J', by rw [KK.nMax]; rfl, by omega⟩, AA, ⟨O.child, O.parent, O.freq, O.block, O.sNode, O.edge, O.nMax, O.n1, O.nn, O.next⟩, ?_, ?_, ?_, ?_, ?_, by omega⟩
  · show s'.mostP = _
    rw [S3.1, P.mostP]; omega
  · simp only [tp]; omega
  · intro i i1 i2
    rw [KK.frame.blocks.block i (by omega)]
    unfold sproutV
    simp only [Arr.get_upd]
    rw [if_neg (by omega), if_neg (by omega), hpad i (by omega) i2]
  · intro b hb
    exact (KK.frame.blocks.away b (hK2 b hb)).2
  · have c1 := KK.frame.blocks.cnt
    rw [show 2 * (m + 1) - 1 = 2 * m + 1 by omega] at c1
    omega

end Lha
