import Verif.Proof.SibCode
/-!
# The distance tree of lh2 is a tree like the other one, 628 nodes further on

`View m s v`: the nodes from 628 on of `s` hold what the nodes from 0 on of `v` hold.  Blocks, stock and `avail` are shared.  The root
is an exception: its weight in `s` is always 65535, and what `s` has for its block is not read.
-/

namespace Lha

/-- What `s` holds where the view holds `x`. -/
def psi (x : Nat) : Nat := if 32768 ≤ x then x - 314 else x + 628

theorem psi_leaf {c : Nat} (h : c < 300) : psi (65535 - c) = 65535 - c - 314 := by unfold psi; rw [if_pos (by omega)]
theorem psi_pair {k : Nat} (h : k < 300) : psi (2 * k) = 2 * k + 628 := by unfold psi; rw [if_neg (by omega)]

structure View (m : Nat) (s v : Dyn) : Prop where
  sz : DynSz s
  vz : DynSz v
  child : ∀ i, i < 2 * m - 1 → s.child.get (i + 628) = psi (v.child.get i)
  parent : ∀ i, 1 ≤ i → i < 2 * m - 1 → s.parent.get (i + 628) = v.parent.get i + 628
  sNode : ∀ c, c < m → s.sNode.get (c + 314) = v.sNode.get c + 628
  freq : ∀ i, 1 ≤ i → i < 2 * m - 1 → s.freq.get (i + 628) = v.freq.get i
  root : s.freq.get 628 = 65535
  block : ∀ i, 1 ≤ i → i < 256 → s.block.get (i + 628) = v.block.get i
  edge : ∀ i, 1 ≤ i → i < 2 * m - 1 → s.edge.get (v.block.get i) = v.edge.get (v.block.get i) + 628
  stock : ∀ a, a < 628 → s.stock.get a = v.stock.get a
  avail : s.avail = v.avail

/-- What an operation on the distance tree leaves alone; `K` are block numbers in use elsewhere. -/
structure OutsideP (K : Nat → Prop) (s s' : Dyn) : Prop where
  child : ∀ i, i < 628 → s'.child.get i = s.child.get i
  parent : ∀ i, i < 628 → s'.parent.get i = s.parent.get i
  freq : ∀ i, i < 628 → s'.freq.get i = s.freq.get i
  block : ∀ i, i < 628 → s'.block.get i = s.block.get i
  sNode : ∀ c, c < 314 → s'.sNode.get c = s.sNode.get c
  edge : ∀ b, K b → s'.edge.get b = s.edge.get b
  nMax : s'.nMax = s.nMax
  n1 : s'.n1 = s.n1
  nn : s'.nn = s.nn
  next : s'.nextcount = s.nextcount

theorem OutsideP.refl (K : Nat → Prop) (s : Dyn) : OutsideP K s s :=
  ⟨fun _ _ => rfl, fun _ _ => rfl, fun _ _ => rfl, fun _ _ => rfl, fun _ _ => rfl, fun _ _ => rfl, rfl, rfl, rfl, rfl⟩

theorem OutsideP.trans {K : Nat → Prop} {a b c : Dyn} (h : OutsideP K a b) (h' : OutsideP K b c) : OutsideP K a c :=
  ⟨fun i hi => by rw [h'.child i hi, h.child i hi], fun i hi => by rw [h'.parent i hi, h.parent i hi], fun i hi => by rw [h'.freq i hi, h.freq i hi],
    fun i hi => by rw [h'.block i hi, h.block i hi], fun i hi => by rw [h'.sNode i hi, h.sNode i hi], fun i hi => by rw [h'.edge i hi, h.edge i hi],
    by rw [h'.nMax, h.nMax], by rw [h'.n1, h.n1], by rw [h'.nn, h.nn], by rw [h'.next, h.next]⟩

/-- The counters of the distance tree. -/
def Same (s s' : Dyn) : Prop := s'.mostP = s.mostP ∧ s'.totalP = s.totalP

theorem Same.trans {a b c : Dyn} (h : Same a b) (h' : Same b c) : Same a c := ⟨by rw [h'.1, h.1], by rw [h'.2, h.2]⟩

variable {m : Nat} {s v : Dyn} {K : Nat → Prop}

theorem setPar_view (hm : m ≤ 128) (V : View m s v) {r : Nat} (hr : ValidF m r) (q : Nat) :
    ∃ s1 pa sn, setPar r q v = .ok { v with parent := pa, sNode := sn } ∧ setPar (psi r) (q + 628) s = .ok s1 ∧
      View m s1 { v with parent := pa, sNode := sn } ∧ OutsideP K s s1 ∧ Same s s1 := by
  have hs := V.sz
  have hv := V.vz
  unfold setPar
  rcases hr with ⟨c, c1, rfl⟩ | ⟨k, k1, k2, rfl⟩
  · rw [psi_leaf (by omega), if_pos (by omega), if_pos (by omega), wr_ok (by rw [hv.sNode]; omega), ok_bind, wr_ok (by rw [hs.sNode]; omega), ok_bind,
      show 65535 - (65535 - c) = c from by omega, show 65535 - (65535 - c - 314) = c + 314 from by omega]
    refine ⟨_, _, _, rfl, rfl, ⟨⟨hs.child, hs.parent, hs.block, hs.edge, hs.stock, by simp [hs.sNode], hs.freq⟩,
      ⟨hv.child, hv.parent, hv.block, hv.edge, hv.stock, by simp [hv.sNode], hv.freq⟩, V.child, V.parent, ?_, V.freq, V.root, V.block, V.edge, V.stock, V.avail⟩, ?_, rfl, rfl⟩
    · intro d hd
      simp only [Arr.get_upd]
      by_cases e : d = c
      · rw [if_pos (by omega), if_pos e]
      · rw [if_neg (by omega), if_neg e, V.sNode d hd]
    · exact ⟨fun _ _ => rfl, fun _ _ => rfl, fun _ _ => rfl, fun _ _ => rfl, fun d hd => by simp only []; rw [Arr.get_upd_ne _ _ _ _ (by omega)],
        fun _ _ => rfl, rfl, rfl, rfl, rfl⟩
  · rw [psi_pair (by omega), if_neg (by omega), if_neg (by omega), if_neg (by omega), if_neg (by omega), wr_ok (by rw [hv.parent]; omega), ok_bind,
      wr_ok (by rw [Arr.size_upd, hv.parent]; omega), ok_bind, wr_ok (by rw [hs.parent]; omega), ok_bind,
      wr_ok (by rw [Arr.size_upd, hs.parent]; omega), ok_bind]
    refine ⟨_, _, _, rfl, rfl, ⟨⟨hs.child, by simp [hs.parent], hs.block, hs.edge, hs.stock, hs.sNode, hs.freq⟩,
      ⟨hv.child, by simp [hv.parent], hv.block, hv.edge, hv.stock, hv.sNode, hv.freq⟩, V.child, ?_, V.sNode, V.freq, V.root, V.block, V.edge, V.stock, V.avail⟩, ?_, rfl, rfl⟩
    · intro i i1 i2
      simp only [Arr.get_upd]
      by_cases e : i = 2 * k
      · rw [if_pos (by omega), if_pos e]
      · rw [if_neg (by omega), if_neg e]
        by_cases e' : i = 2 * k - 1
        · rw [if_pos (by omega), if_pos e']
        · rw [if_neg (by omega), if_neg e', V.parent i i1 i2]
    · exact ⟨fun _ _ => rfl, fun i hi => by simp only []; rw [Arr.get_upd_ne _ _ _ _ (by omega), Arr.get_upd_ne _ _ _ _ (by omega)], fun _ _ => rfl,
        fun _ _ => rfl, fun _ _ => rfl, fun _ _ => rfl, rfl, rfl, rfl, rfl⟩

theorem edgeInc_view (V : View m s v) {j : Nat} (j1 : 1 ≤ j) (j2 : j < 2 * m - 1) (hb : v.block.get j < 884)
    (he : v.edge.get (v.block.get j) < 60000) (hK : ¬ K (v.block.get j)) :
    ∃ s1, edgeInc (v.block.get j) v = .ok { v with edge := v.edge.upd (v.block.get j) (v.edge.get (v.block.get j) + 1) } ∧
      edgeInc (v.block.get j) s = .ok s1 ∧ View m s1 { v with edge := v.edge.upd (v.block.get j) (v.edge.get (v.block.get j) + 1) } ∧ OutsideP K s s1 ∧ Same s s1 := by
  have hs := V.sz
  have hv := V.vz
  have e := V.edge j j1 j2
  refine ⟨_, edgeInc_ok hv hb (by omega), edgeInc_ok hs hb (by omega), ⟨⟨hs.child, hs.parent, hs.block, by simp [hs.edge], hs.stock, hs.sNode, hs.freq⟩,
      ⟨hv.child, hv.parent, hv.block, by simp [hv.edge], hv.stock, hv.sNode, hv.freq⟩, V.child, V.parent, V.sNode, V.freq, V.root, V.block, ?_, V.stock, V.avail⟩, ?_, rfl, rfl⟩
  · intro i i1 i2
    simp only [Arr.get_upd]
    by_cases g : v.block.get i = v.block.get j
    · rw [if_pos g, if_pos g]; omega
    · rw [if_neg g, if_neg g, V.edge i i1 i2]
  · exact ⟨fun _ _ => rfl, fun _ _ => rfl, fun _ _ => rfl, fun _ _ => rfl, fun _ _ => rfl,
      fun b hb => by simp only []; rw [Arr.get_upd_ne _ _ _ _ (by rintro rfl; exact hK hb)], rfl, rfl, rfl, rfl⟩

theorem newBlock_view (V : View m s v) (hm : m ≤ 128) {j : Nat} (j1 : 1 ≤ j) (j2 : j < 2 * m - 1) (ha : v.avail < 628)
    (hb : v.stock.get v.avail < 884) (hK : ¬ K (v.stock.get v.avail)) :
    ∃ s1 v1, newBlock j v = .ok v1 ∧ newBlock (j + 628) s = .ok s1 ∧ View m s1 v1 ∧ OutsideP K s s1 ∧ Same s s1 := by
  have hs := V.sz
  have hv := V.vz
  have ea := V.avail
  have es := V.stock v.avail ha
  refine ⟨_, _, newBlock_ok hv (by omega) (by omega) hb, newBlock_ok hs (by omega) (by omega) (by rw [ea, es]; exact hb),
    ⟨⟨hs.child, hs.parent, by simp [hs.block], by simp [hs.edge], hs.stock, hs.sNode, hs.freq⟩,
      ⟨hv.child, hv.parent, by simp [hv.block], by simp [hv.edge], hv.stock, hv.sNode, hv.freq⟩, V.child, V.parent, V.sNode, V.freq, V.root, ?_, ?_, V.stock,
      by simp only [ea]⟩, ?_, rfl, rfl⟩
  · intro i i1 i2
    simp only [Arr.get_upd]
    by_cases g : i = j
    · rw [if_pos (by omega), if_pos g, ea, es]
    · rw [if_neg (by omega), if_neg g, V.block i i1 i2]
  · intro i i1 i2
    simp only [Arr.get_upd]
    rw [ea, es]
    by_cases g : i = j
    · rw [if_pos g, if_pos rfl, if_pos rfl]
    · rw [if_neg g]
      by_cases g' : v.block.get i = v.stock.get v.avail
      · rw [if_pos g', if_pos g']
      · rw [if_neg g', if_neg g', V.edge i i1 i2]
  · exact ⟨fun _ _ => rfl, fun _ _ => rfl, fun _ _ => rfl, fun i hi => by simp only []; rw [Arr.get_upd_ne _ _ _ _ (by omega)], fun _ _ => rfl,
      fun b hb => by simp only []; rw [ea, es, Arr.get_upd_ne _ _ _ _ (by rintro rfl; exact hK hb)], rfl, rfl, rfl, rfl⟩

/-- The weight of one node changed, on both sides. -/
theorem View.setFreq (V : View m s v) {p f : Nat} (p1 : 1 ≤ p) : View m { s with freq := s.freq.upd (p + 628) f } { v with freq := v.freq.upd p f } := by
  have hs := V.sz
  have hv := V.vz
  refine ⟨⟨hs.child, hs.parent, hs.block, hs.edge, hs.stock, hs.sNode, by simp [hs.freq]⟩,
    ⟨hv.child, hv.parent, hv.block, hv.edge, hv.stock, hv.sNode, by simp [hv.freq]⟩, V.child, V.parent, V.sNode, ?_, ?_, V.block, V.edge, V.stock, V.avail⟩
  · intro i i1 i2
    simp only [Arr.get_upd]
    by_cases g : i = p
    · rw [if_pos (by omega), if_pos g]
    · rw [if_neg (by omega), if_neg g, V.freq i i1 i2]
  · simp only [Arr.get_upd]
    rw [if_neg (by omega), V.root]

theorem OutsideP.setFreq {p f : Nat} : OutsideP K s { s with freq := s.freq.upd (p + 628) f } :=
  ⟨fun _ _ => rfl, fun _ _ => rfl, fun i hi => by simp only []; rw [Arr.get_upd_ne _ _ _ _ (by omega)], fun _ _ => rfl, fun _ _ => rfl, fun _ _ => rfl,
    rfl, rfl, rfl, rfl⟩

/-- Node `p` takes the block of node `p - 1`, on both sides. -/
theorem View.join (V : View m s v) {p : Nat} (p1 : 2 ≤ p) (p2 : p < 2 * m - 1) (_hm : m ≤ 128) :
    View m { s with block := s.block.upd (p + 628) (s.block.get (p - 1 + 628)) } { v with block := v.block.upd p (v.block.get (p - 1)) } := by
  have hs := V.sz
  have hv := V.vz
  refine ⟨⟨hs.child, hs.parent, by simp [hs.block], hs.edge, hs.stock, hs.sNode, hs.freq⟩,
    ⟨hv.child, hv.parent, by simp [hv.block], hv.edge, hv.stock, hv.sNode, hv.freq⟩, V.child, V.parent, V.sNode, V.freq, V.root, ?_, ?_, V.stock, V.avail⟩
  · intro i i1 i2
    simp only [Arr.get_upd]
    by_cases g : i = p
    · rw [if_pos (by omega), if_pos g, V.block (p - 1) (by omega) (by omega)]
    · rw [if_neg (by omega), if_neg g, V.block i i1 i2]
  · intro i i1 i2
    simp only [Arr.get_upd]
    by_cases g : i = p
    · rw [if_pos g, V.edge (p - 1) (by omega) (by omega)]
    · rw [if_neg g, V.edge i i1 i2]

theorem OutsideP.setBlock {p f : Nat} : OutsideP K s { s with block := s.block.upd (p + 628) f } :=
  ⟨fun _ _ => rfl, fun _ _ => rfl, fun _ _ => rfl, fun i hi => by simp only []; rw [Arr.get_upd_ne _ _ _ _ (by omega)], fun _ _ => rfl, fun _ _ => rfl,
    rfl, rfl, rfl, rfl⟩

theorem incJoin_view (V : View m s v) (hm : m ≤ 128) {p : Nat} (p1 : 1 ≤ p) (p2 : p < 2 * m - 1) (hf : v.freq.get p < 40000)
    (h1 : p = 1 → v.freq.get 1 + 1 < v.freq.get 0) (ha : v.freq.get p + 1 ≠ v.freq.get (p - 1) → v.avail < 628 ∧ v.stock.get v.avail < 884 ∧ ¬ K (v.stock.get v.avail)) :
    ∃ s1 v1, incJoin p v = .ok v1 ∧ incJoin (p + 628) s = .ok s1 ∧ View m s1 v1 ∧ OutsideP K s s1 ∧ Same s s1 := by
  have hs := V.sz
  have hv := V.vz
  have ef := V.freq p p1 p2
  unfold incJoin
  rw [rd_ok (by rw [hv.freq]; omega), ok_bind, wr_ok (by rw [hv.freq]; omega), ok_bind, Nat.mod_eq_of_lt (by omega), if_neg (by omega),
    rd_ok (by rw [Arr.size_upd, hv.freq]; omega), ok_bind, Arr.get_upd_ne _ _ _ _ (by omega),
    rd_ok (a := s.freq) (by rw [hs.freq]; omega), ok_bind, wr_ok (a := s.freq) (by rw [hs.freq]; omega), ok_bind, ef, Nat.mod_eq_of_lt (by omega), if_neg (show ¬ (p + 628 = 0) by omega),
    rd_ok (a := s.freq.upd _ _) (by rw [Arr.size_upd, hs.freq]; omega), ok_bind, Arr.get_upd_ne _ _ _ _ (by omega)]
  have hcmp : (v.freq.get p + 1 = s.freq.get (p + 628 - 1)) ↔ (v.freq.get p + 1 = v.freq.get (p - 1)) := by
    by_cases g : p = 1
    · subst g
      have := h1 rfl
      have := V.root
      simp only [show 1 + 628 - 1 = 628 from rfl, Nat.sub_self]
      omega
    · rw [show p + 628 - 1 = p - 1 + 628 from by omega, V.freq (p - 1) (by omega) (by omega)]
  by_cases g : v.freq.get p + 1 = v.freq.get (p - 1)
  · rw [if_pos g, if_pos (hcmp.2 g), rd_ok (by rw [hv.block]; omega), ok_bind, wr_ok (by rw [hv.block]; omega), ok_bind,
      rd_ok (a := s.block) (by rw [hs.block]; omega), ok_bind, wr_ok (a := s.block) (by rw [hs.block]; omega), ok_bind]
    have g1 : p ≠ 1 := by
      intro e
      have := h1 e
      subst e
      simp only [Nat.sub_self] at g
      omega
    rw [show p + 628 - 1 = p - 1 + 628 from by omega]
    exact ⟨_, _, rfl, rfl, (V.setFreq (f := v.freq.get p + 1) p1).join (by omega) p2 hm, OutsideP.setFreq.trans OutsideP.setBlock, rfl, rfl⟩
  · rw [if_neg g, if_neg (fun e => g (hcmp.1 e))]
    obtain ⟨a1, a2, a3⟩ := ha g
    obtain ⟨s1, v1, e1, e2, V1, O1, S1⟩ := newBlock_view (V.setFreq (f := v.freq.get p + 1) p1) hm p1 p2 a1 a2 a3
    exact ⟨s1, v1, e1, e2, V1, OutsideP.setFreq.trans O1, S1⟩

theorem incAlone_view (V : View m s v) (hm : m ≤ 128) {p b : Nat} (p1 : 1 ≤ p) (p2 : p < 2 * m - 1) (hf : v.freq.get p < 40000)
    (h1 : p = 1 → v.freq.get 1 + 1 < v.freq.get 0) (ha : 1 ≤ v.avail ∧ v.avail ≤ 628) :
    ∃ s1 v1, incAlone b p v = .ok v1 ∧ incAlone b (p + 628) s = .ok s1 ∧ View m s1 v1 ∧ OutsideP K s s1 ∧ Same s s1 := by
  have hs := V.sz
  have hv := V.vz
  have ef := V.freq p p1 p2
  have ea := V.avail
  unfold incAlone
  rw [rd_ok (by rw [hv.freq]; omega), ok_bind, wr_ok (by rw [hv.freq]; omega), ok_bind, Nat.mod_eq_of_lt (by omega), if_neg (by omega),
    rd_ok (by rw [Arr.size_upd, hv.freq]; omega), ok_bind, Arr.get_upd_ne _ _ _ _ (by omega),
    rd_ok (a := s.freq) (by rw [hs.freq]; omega), ok_bind, wr_ok (a := s.freq) (by rw [hs.freq]; omega), ok_bind, ef, Nat.mod_eq_of_lt (by omega), if_neg (show ¬ (p + 628 = 0) by omega),
    rd_ok (a := s.freq.upd _ _) (by rw [Arr.size_upd, hs.freq]; omega), ok_bind, Arr.get_upd_ne _ _ _ _ (by omega)]
  have hcmp : (v.freq.get p + 1 = s.freq.get (p + 628 - 1)) ↔ (v.freq.get p + 1 = v.freq.get (p - 1)) := by
    by_cases g : p = 1
    · subst g
      have := h1 rfl
      have := V.root
      simp only [show 1 + 628 - 1 = 628 from rfl, Nat.sub_self]
      omega
    · rw [show p + 628 - 1 = p - 1 + 628 from by omega, V.freq (p - 1) (by omega) (by omega)]
  by_cases g : v.freq.get p + 1 = v.freq.get (p - 1)
  · rw [if_pos g, if_pos (hcmp.2 g), if_neg (show ¬ (v.avail = 0) by omega), if_neg (show ¬ (s.avail = 0) by omega), wr_ok (by rw [hv.stock]; omega), ok_bind, rd_ok (by rw [hv.block]; omega), ok_bind,
      wr_ok (by rw [hv.block]; omega), ok_bind, wr_ok (a := s.stock) (by rw [hs.stock]; omega), ok_bind,
      rd_ok (a := s.block) (by rw [hs.block]; omega), ok_bind, wr_ok (a := s.block) (by rw [hs.block]; omega), ok_bind]
    have g1 : p ≠ 1 := by
      intro e
      have := h1 e
      subst e
      simp only [Nat.sub_self] at g
      omega
    rw [show p + 628 - 1 = p - 1 + 628 from by omega]
    have V1 := (V.setFreq (f := v.freq.get p + 1) p1).join (by omega) p2 hm
    have zs := V1.sz
    have zv := V1.vz
    refine ⟨_, _, rfl, rfl, ⟨⟨zs.child, zs.parent, zs.block, zs.edge, by simp [hs.stock], zs.sNode, zs.freq⟩,
      ⟨zv.child, zv.parent, zv.block, zv.edge, by simp [hv.stock], zv.sNode, zv.freq⟩, V1.child, V1.parent, V1.sNode, V1.freq, V1.root, V1.block, V1.edge, ?_,
      by simp only [ea]⟩, ?_, rfl, rfl⟩
    · intro a a1
      simp only [Arr.get_upd]
      rw [ea, V.stock a a1]
    · exact ⟨fun _ _ => rfl, fun _ _ => rfl, fun i hi => by simp only []; rw [Arr.get_upd_ne _ _ _ _ (by omega)],
        fun i hi => by simp only []; rw [Arr.get_upd_ne _ _ _ _ (by omega)], fun _ _ => rfl, fun _ _ => rfl, rfl, rfl, rfl, rfl⟩
  · rw [if_neg g, if_neg (fun e => g (hcmp.1 e))]
    exact ⟨_, _, rfl, rfl, V.setFreq p1, OutsideP.setFreq, rfl, rfl⟩

/-- What two nodes hold exchanged, on both sides. -/
theorem View.swapChild (V : View m s v) {p q r t : Nat} :
    View m { s with child := (s.child.upd (p + 628) (psi t)).upd (q + 628) (psi r) } { v with child := (v.child.upd p t).upd q r } := by
  have hs := V.sz
  have hv := V.vz
  refine ⟨⟨by simp [hs.child], hs.parent, hs.block, hs.edge, hs.stock, hs.sNode, hs.freq⟩,
    ⟨by simp [hv.child], hv.parent, hv.block, hv.edge, hv.stock, hv.sNode, hv.freq⟩, ?_, V.parent, V.sNode, V.freq, V.root, V.block, V.edge, V.stock, V.avail⟩
  intro i i1
  simp only [Arr.get_upd]
  by_cases g : i = q
  · rw [if_pos (by omega), if_pos g]
  · rw [if_neg (by omega), if_neg g]
    by_cases g' : i = p
    · rw [if_pos (by omega), if_pos g']
    · rw [if_neg (by omega), if_neg g', V.child i i1]

theorem OutsideP.swapChild {p q r t : Nat} : OutsideP K s { s with child := (s.child.upd (p + 628) t).upd (q + 628) r } :=
  ⟨fun i hi => by simp only []; rw [Arr.get_upd_ne _ _ _ _ (by omega), Arr.get_upd_ne _ _ _ _ (by omega)], fun _ _ => rfl, fun _ _ => rfl, fun _ _ => rfl,
    fun _ _ => rfl, fun _ _ => rfl, rfl, rfl, rfl, rfl⟩

/-- Counting up one node of the distance tree is counting up a node of the view. -/
theorem swapInc_view (V : View m s v) (hm1 : 2 ≤ m) (hm : m ≤ 128) {p : Nat} {w : Nat → Nat} (I : DynInv m p w v) (p1 : 1 ≤ p) (p2 : p < 2 * m - 1)
    (hKb : ∀ j, j < 2 * m - 1 → ¬ K (v.block.get j)) (hKs : ∀ a, v.avail ≤ a → a < 628 → ¬ K (v.stock.get a)) :
    ∃ x s' v', swapInc p v = .ok (x, v') ∧ swapInc (p + 628) s = .ok (x + 628, s') ∧ View m s' v' ∧ OutsideP K s s' ∧ Same s s' := by
  have hs := V.sz
  have hv := V.vz
  have B := I.block
  have hb := B.blk p p2
  have hle := B.edge_le p p2
  have heq := B.edge_eq p p2
  have ee := V.edge p p1 p2
  have mono : ∀ i j, i ≤ j → j < 2 * m - 1 → v.freq.get j ≤ v.freq.get i := I.weight.mono
  have hcap := I.cap
  have hroot := I.weight.sum 0 1 (by omega) (by omega) (by omega) (I.tree.root hm1)
  rw [if_neg (by omega), if_pos rfl] at hroot
  have hp2 := I.weight.pos 2 (by omega)
  have hp1 : v.freq.get 1 + 1 < v.freq.get 0 := by
    simp only [Nat.mul_one, show 2 - 1 = 1 from rfl] at hroot
    omega
  have hf : ∀ i, 1 ≤ i → i < 2 * m - 1 → v.freq.get i < 40000 := by
    intro i _ h2
    have := mono 0 i (by omega) h2
    omega
  have hav : ∀ i, i + 1 < 2 * m - 1 → v.freq.get (i + 1) = v.freq.get i → v.avail < 628 := by
    intro i h1 h2
    have := leads_lt v.freq.get _ i h1 h2
    have := B.cnt
    omega
  unfold swapInc
  rw [rd_ok (a := v.block) (by rw [hv.block]; omega), ok_bind, rd_ok (a := v.edge) (by rw [hv.edge]; omega), ok_bind,
    rd_ok (a := s.block) (by rw [hs.block]; omega), ok_bind, V.block p p1 (by omega), rd_ok (a := s.edge) (by rw [hs.edge]; omega), ok_bind, ee]
  by_cases hq : v.edge.get (v.block.get p) = p
  · rw [if_neg (by simp [hq]), if_neg (by simp [hq]), rd_ok (a := v.block) (by rw [hv.block]; omega), ok_bind,
      rd_ok (a := s.block) (by rw [hs.block]; omega), ok_bind, show p + 628 + 1 = p + 1 + 628 from by omega, V.block (p + 1) (by omega) (by omega)]
    by_cases hc : v.block.get p = v.block.get (p + 1)
    · rw [if_pos hc, if_pos hc]
      have hpn : p + 1 < 2 * m - 1 := by
        by_contra g
        have : p + 1 = 2 * m - 1 := by omega
        rw [this, B.pad] at hc
        omega
      obtain ⟨s1, e1, e2, V1, O1, S1⟩ := edgeInc_view (K := K) V p1 p2 hb.2 (by omega) (hKb p p2)
      have a := hav p hpn (B.sep hpn p2 hc.symm)
      have fr := B.free v.avail (Nat.le_refl _) a
      obtain ⟨s2, v2, e3, e4, V2, O2, S2⟩ := incJoin_view (K := K) V1 hm p1 p2 (hf p p1 p2) (fun _ => hp1)
        (fun _ => ⟨a, fr.2.1, hKs _ (Nat.le_refl _) a⟩)
      rw [e1, ok_bind, e3, ok_bind, e2, ok_bind, e4, ok_bind, rd_ok (by rw [V2.vz.parent]; omega), ok_bind,
        rd_ok (a := s2.parent) (by rw [V2.sz.parent]; omega), ok_bind, V2.parent p p1 p2]
      exact ⟨_, _, _, rfl, rfl, V2, O1.trans O2, S1.trans S2⟩
    · rw [if_neg hc, if_neg hc]
      have := leads_le v.freq.get (2 * m - 1)
      have := B.cnt
      obtain ⟨s2, v2, e3, e4, V2, O2, S2⟩ := incAlone_view (K := K) (b := v.block.get p) V hm p1 p2 (hf p p1 p2) (fun _ => hp1) (by omega)
      rw [e3, ok_bind, e4, ok_bind, rd_ok (by rw [V2.vz.parent]; omega), ok_bind,
        rd_ok (a := s2.parent) (by rw [V2.sz.parent]; omega), ok_bind, V2.parent p p1 p2]
      exact ⟨_, _, _, rfl, rfl, V2, O2, S2⟩
  · rw [if_pos hq, if_pos (by omega)]
    have h0 : v.edge.get (v.block.get p) ≠ 0 := fun g => by
      rw [g] at heq
      have := mono 1 p p1 p2
      omega
    have bq : v.block.get (v.edge.get (v.block.get p)) = v.block.get p := B.same _ _ (by omega) p2 heq
    obtain ⟨q, hqd⟩ : ∃ q, q = v.edge.get (v.block.get p) := ⟨_, rfl⟩
    rw [← hqd] at heq hle hq h0 bq ⊢
    have q2 : q < 2 * m - 1 := by omega
    rw [rd_ok (a := v.child) (by rw [hv.child]; omega), ok_bind, rd_ok (a := v.child) (by rw [hv.child]; omega), ok_bind,
      wr_ok (a := v.child) (by rw [hv.child]; omega), ok_bind, wr_ok (a := v.child.upd _ _) (by rw [Arr.size_upd, hv.child]; omega), ok_bind,
      rd_ok (a := s.child) (by rw [hs.child]; omega), ok_bind, rd_ok (a := s.child) (by rw [hs.child]; omega), ok_bind,
      wr_ok (a := s.child) (by rw [hs.child]; omega), ok_bind, wr_ok (a := s.child.upd _ _) (by rw [Arr.size_upd, hs.child]; omega), ok_bind,
      V.child p p2, V.child q q2]
    obtain ⟨s1, pa, sn, e1, e2, V1, O1, S1⟩ := setPar_view (K := K) hm (V.swapChild (p := p) (q := q) (r := v.child.get p) (t := v.child.get q)) (I.tree.node p p2).1 q
    rw [e1, ok_bind, e2, ok_bind]
    obtain ⟨s2, pa', sn', e3, e4, V2, O2, S2⟩ := setPar_view (K := K) hm V1 (I.tree.node q q2).1 p
    rw [e3, ok_bind, e4, ok_bind]
    obtain ⟨s3, e5, e6, V3, O3, S3⟩ := edgeInc_view (K := K) V2 p1 p2 hb.2 (by simp only []; omega) (hKb p p2)
    simp only [] at e5 e6 V3
    rw [e5, ok_bind, e6, ok_bind]
    have m1 := mono q (q + 1) (by omega) (by omega)
    have m2 := mono (q + 1) p (by omega) p2
    have a := hav q (by omega) (by omega)
    have fr := B.free v.avail (Nat.le_refl _) a
    obtain ⟨s4, v4, e7, e8, V4, O4, S4⟩ := incJoin_view (K := K) (p := q) V3 hm (by omega) q2 (hf q (by omega) q2) (fun _ => hp1)
        (fun _ => ⟨a, fr.2.1, hKs _ (Nat.le_refl _) a⟩)
    rw [e7, ok_bind, e8, ok_bind, rd_ok (by rw [V4.vz.parent]; omega), ok_bind,
        rd_ok (a := s4.parent) (by rw [V4.sz.parent]; omega), ok_bind, V4.parent q (by omega) q2]
    exact ⟨_, _, _, rfl, rfl, V4, (((OutsideP.swapChild.trans O1).trans O2).trans O3).trans O4,
      Same.trans (Same.trans (Same.trans S1 S2) S3) S4⟩

end Lha
