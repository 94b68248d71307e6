import Verif.Proof.PGrow
import Verif.Proof.DynStart
import Verif.Proof.SibCode
/-!
# lh2: the two trees side by side

The tree of the letters and lengths takes the lower part of the arrays and the tree of the distances the upper part; both draw their
block numbers from the same stock.
-/

namespace Lha

open Spec

theorem TreeF.congr {n : Nat} {ch pa sn ch' pa' sn' : Nat → Nat} (T : TreeF n ch pa sn) (hn : n ≤ 314) (hc : ∀ i, i < 2 * n - 1 → ch' i = ch i)
    (hp : ∀ i, i < 2 * n - 1 → pa' i = pa i) (hs : ∀ c, c < n → sn' c = sn c) : TreeF n ch' pa' sn' := by
  have own : ∀ v, ValidF n v → ownF pa' sn' v = ownF pa sn v := by
    intro v hv
    unfold ownF
    rcases hv with ⟨c, c1, rfl⟩ | ⟨k, k1, k2, rfl⟩
    · rw [if_pos (by omega), if_pos (by omega), show 65535 - (65535 - c) = c by omega, hs c c1]
    · rw [if_neg (by omega), if_neg (by omega), hp _ (by omega)]
  refine ⟨?_, ?_, ?_⟩
  · intro i hi
    have := T.node i hi
    rw [hc i hi, own _ this.1]
    exact this
  · intro v hv
    have := T.owner v hv
    rw [own v hv, hc _ this.1]
    exact this
  · intro k k1 k2
    have := T.up k k1 k2
    rw [hp _ (by omega), hp _ (by omega)]
    exact this

theorem WeightF.congr {n d : Nat} {ch f ch' f' : Nat → Nat} (W : WeightF n d ch f) (hc : ∀ i, i < 2 * n - 1 → ch' i = ch i)
    (hf : ∀ i, i < 2 * n - 1 → f' i = f i) : WeightF n d ch' f' := by
  refine ⟨?_, ?_, ?_⟩
  · intro i j a b
    rw [hf i (by omega), hf j b]
    exact W.mono i j a b
  · intro i a
    rw [hf i a]
    exact W.pos i a
  · intro i k a b c e
    rw [hc i a] at e
    rw [hf i a, hf _ (by omega), hf _ (by omega)]
    exact W.sum i k a b c e

/-- The same nodes, another stock. -/
theorem BlockF.restock {N : Nat} {bl ed st bl' ed' st' f f' : Nat → Nat} {av av' : Nat} (B : BlockF N bl ed st av f) (hb : ∀ i, i ≤ N → bl' i = bl i)
    (he : ∀ i, i < N → ed' (bl i) = ed (bl i)) (hf : ∀ i, i < N → f' i = f i)
    (hfree : ∀ a, av' ≤ a → a < 628 → 1 ≤ st' a ∧ st' a < 884 ∧ ∀ i, i < N → bl i ≠ st' a)
    (hinj : ∀ a a', av' ≤ a → a < 628 → av' ≤ a' → a' < 628 → st' a = st' a' → a = a')
    (hcnt : 1 + leads f N ≤ av' ∧ av' + N ≤ 628 + leads f N) : BlockF N bl' ed' st' av' f' := by
  have e1 : ∀ i, i < N → ed' (bl' i) = ed (bl i) := fun i hi => by rw [hb i (by omega), he i hi]
  refine ⟨?_, ?_, ?_, ?_, ?_, ?_, hinj, ?_, ?_⟩
  · intro i hi
    rw [hb i (by omega)]
    exact B.blk i hi
  · intro i j hi hj e
    rw [hf i hi, hf j hj] at e
    rw [hb i (by omega), hb j (by omega)]
    exact B.same i j hi hj e
  · intro i hi
    rw [e1 i hi]
    exact B.edge_le i hi
  · intro i hi
    have := B.edge_le i hi
    rw [e1 i hi, hf _ (by omega), hf i hi]
    exact B.edge_eq i hi
  · intro i j hi hj
    rw [e1 i hi] at hj
    have := B.edge_le i hi
    rw [hf i hi, hf j (by omega)]
    exact B.edge_lt i j hi hj
  · intro a a1 a2
    obtain ⟨x, y, z⟩ := hfree a a1 a2
    exact ⟨x, y, fun i hi => by rw [hb i (by omega)]; exact z i hi⟩
  · rw [leads_congr f' f N hf]
    exact hcnt
  · rw [hb N (Nat.le_refl _)]
    exact B.pad

/-- The distance tree with one symbol. -/
structure Solo (s : Dyn) (b : Nat) : Prop where
  child : s.child.get 628 = 65535 - 314
  sNode : s.sNode.get 314 = 628
  freq : s.freq.get 628 = 1
  block : s.block.get 628 = b
  edge : s.edge.get b = 628
  num : 1 ≤ b ∧ b < 628
  pads : ∀ i, 1 ≤ i → i < 256 → s.block.get (i + 628) = 0

/-- The distance tree with one symbol, beside the other one. -/
structure Alone (t : Tree) (s : Dyn) : Prop where
  tree : t = Dist.start.t
  solo : ∃ b, Solo s b ∧ Away 571 b s.block.get s.stock.get s.avail
  spare : Away 571 883 s.block.get s.stock.get s.avail
  cnt : s.avail = 2 + leads s.freq.get 571

/-- The distance tree with several symbols, beside the other one. -/
structure Beside (m total : Nat) (t : Tree) (s : Dyn) (v : Dyn) : Prop where
  view : View m s v
  ok : ∃ w, DynOk m w v
  agree : Agree m t v
  low : v.freq.get 0 ≤ total + 2
  pads : ∀ i, 2 * m - 1 ≤ i → i < 256 → v.block.get i = 0
  apart : ∀ i j, i < 571 → j < 2 * m - 1 → s.block.get i ≠ v.block.get j
  cnt : s.avail = leads s.freq.get 571 + leads v.freq.get (2 * m - 1)

/-- The arrays hold the trees `t` and `P`; at most `k` symbols so far. -/
structure Both (k : Nat) (t : Tree) (P : Dist) (s : Dyn) : Prop where
  ok : ∃ w, DynOk 286 w s
  agree : Agree 286 t s
  n1 : s.n1 = 512
  most : s.mostP = 2 * P.m - 2 + 628
  total : s.totalP = P.total
  le : P.total ≤ k + P.m
  nn : s.nn = 8192
  next : s.nextcount = 64 * P.m
  m1 : 1 ≤ P.m
  m2 : P.m ≤ 29
  low : s.freq.get 0 ≤ 286 + k
  p : (P.m = 1 ∧ Alone P.t s) ∨ (2 ≤ P.m ∧ ∃ v, Beside P.m P.total P.t s v)

theorem Beside.awayC {m total : Nat} {t : Tree} {s v : Dyn} (h : Beside m total t s v) : ∀ j, j < 2 * m - 1 → Away 571 (v.block.get j) s.block.get s.stock.get s.avail := by
  intro j hj
  obtain ⟨w, D⟩ := h.ok
  refine ⟨fun i hi => h.apart i j hi hj, fun a a1 a2 => ?_⟩
  rw [h.view.stock a a2]
  rw [h.view.avail] at a1
  exact fun e => (D.inv.block.free a a1 a2).2.2 j hj e.symm

theorem Beside.awayP {m total : Nat} {t : Tree} {s v : Dyn} (h : Beside m total t s v) {w : Nat → Nat} (D : DynOk 286 w s) :
    ∀ b, (∃ i, i < 571 ∧ s.block.get i = b) → Away (2 * m - 1) b v.block.get v.stock.get v.avail := by
  rintro b ⟨i, hi, rfl⟩
  refine ⟨fun j hj => (h.apart i j hi hj).symm, fun a a1 a2 => ?_⟩
  rw [← h.view.stock a a2]
  rw [← h.view.avail] at a1
  exact fun e => (D.inv.block.free a a1 a2).2.2 i hi e.symm

theorem updateC_root {n : Nat} {w : Nat → Nat} (hn1 : 2 ≤ n) (hn : n ≤ 314) {c : Nat} {s s' : Dyn} (h : DynOk n w s) (hc : c < n)
    (hlt : s.freq.get 0 < 32768) (e : updateC c s = .ok s') : s'.freq.get 0 = s.freq.get 0 + 1 := by
  have hs := h.inv.sz
  have o := sNode_at h.inv hn hc
  have hp1 : s.sNode.get c ≠ 0 := fun g => by rw [g, h.inv.tree.root hn1] at o; omega
  obtain ⟨v3, e3, _, b3⟩ := ucLoop_ok hn1 hn (f := 1000) (h.ahead hn1 hn hc hlt) (by omega) o.1 (by omega)
  unfold updateC at e
  rw [rd_ok (by rw [hs.freq]; omega), ok_bind, if_neg (by omega), ok_bind, rd_ok (by rw [hs.freq]; omega), ok_bind,
    wr_ok (by rw [hs.freq]; omega), ok_bind, rd_ok (by rw [hs.sNode]; omega), ok_bind, Nat.mod_eq_of_lt (by omega), e3] at e
  cases e
  have k3 := b3.root
  simp only [Arr.get_upd, if_true] at k3
  exact k3

/-- Counting a letter or length. -/
theorem Both.step {k : Nat} {t t' : Tree} {P : Dist} {s : Dyn} (h : Both k t P s) (hk : k < 30000) {c : Nat} (hc : c < 286) (St : Step 286 t c t') :
    ∃ s', updateC c s = .ok s' ∧ Both (k + 1) t' P s' := by
  obtain ⟨w, D⟩ := h.ok
  have hlt : s.freq.get 0 < 32768 := by have := h.low; omega
  obtain ⟨s', e, D', n1, F⟩ := updateC_plain (by omega) (by omega) D hc hlt
  have ht : t' = t.count 286 c := by
    unfold Step at St
    rw [h.agree.freq 0 (by omega), if_neg (by omega)] at St
    exact St
  subst ht
  have A := count_ok (by omega) (by omega) D hc hlt h.agree e
  refine ⟨s', e, ⟨_, D'⟩, A, by rw [n1, h.n1], by rw [F.rest.1, h.most], by rw [F.rest.2.1, h.total], by have := h.le; omega,
    by rw [F.rest.2.2.1, h.nn], by rw [F.rest.2.2.2, h.next], h.m1, h.m2, ?_, ?_⟩
  · have := updateC_root (by omega) (by omega) D hc hlt e
    have := h.low
    omega
  · rcases h.p with ⟨m1, X⟩ | ⟨m1, v, X⟩
    · refine Or.inl ⟨m1, X.tree, ?_, (F.blocks.away _ X.spare).2, ?_⟩
      · obtain ⟨b, S, aw⟩ := X.solo
        have ab := F.blocks.away b aw
        refine ⟨b, ⟨by rw [F.child _ (by omega), S.child], by rw [F.sNode _ (by omega), S.sNode], by rw [F.freq _ (by omega), S.freq],
          by rw [F.blocks.block _ (by omega), S.block], by rw [ab.1, S.edge], S.num, fun i a b => by rw [F.blocks.block _ (by omega), S.pads i a b]⟩, ab.2⟩
      · have := F.blocks.cnt
        have := X.cnt
        simp only [show 2 * 286 - 1 = 571 from rfl] at *
        omega
    · refine Or.inr ⟨m1, { v with stock := s'.stock, avail := s'.avail }, ?_⟩
      obtain ⟨wv, V⟩ := X.ok
      have aw := fun j hj => F.blocks.away _ (X.awayC j hj)
      have cnt := F.blocks.cnt
      have xc := X.cnt
      simp only [show 2 * 286 - 1 = 571 from rfl] at *
      have l1 := leads_pos s'.freq.get 571 (by omega)
      have l2 := leads_le s'.freq.get 571
      have m2 := h.m2
      have B' := D'.inv.block
      have sz := D'.inv.sz
      have vz := V.inv.sz
      have vw := X.view
      refine ⟨⟨sz, ⟨vz.child, vz.parent, vz.block, vz.edge, sz.stock, vz.sNode, vz.freq⟩, fun i hi => by rw [F.child _ (by omega), vw.child i hi],
        fun i i1 i2 => by rw [F.parent _ (by omega), vw.parent i i1 i2], fun c hc => by rw [F.sNode _ (by omega), vw.sNode c hc],
        fun i i1 i2 => by rw [F.freq _ (by omega), vw.freq i i1 i2], by rw [F.freq _ (by omega), vw.root],
        fun i i1 i2 => by rw [F.blocks.block _ (by omega), vw.block i i1 i2], fun i i1 i2 => ?_, fun _ _ => rfl, rfl⟩, ⟨wv, ⟨⟨?_, V.inv.tree, V.inv.weight, ?_, V.inv.cap, V.inv.leafw⟩,
        V.size, V.cap⟩⟩, ⟨X.agree.node, X.agree.freq⟩, X.low, X.pads, ?_, ?_⟩
      · show s'.edge.get (v.block.get i) = _
        rw [(aw i i2).1, vw.edge i i1 i2]
      · exact ⟨vz.child, vz.parent, vz.block, vz.edge, sz.stock, vz.sNode, vz.freq⟩
      · refine V.inv.block.restock (fun _ _ => rfl) (fun _ _ => rfl) (fun _ _ => rfl) ?_ B'.inj ?_
        · intro a a1 a2
          have := B'.free a a1 a2
          exact ⟨this.1, this.2.1, fun i hi => ((aw i hi).2.2 a a1 a2).symm⟩
        · simp only []
          omega
      · intro i j hi hj
        exact (aw j hj).2.1 i hi
      · simp only []
        omega

/-- What the lower tree is after an operation on the upper one. -/
theorem Both.under {s s' v v' : Dyn} {m m' total total' : Nat} {t t' : Tree} {w : Nat → Nat} (D : DynOk 286 w s) (X : Beside m total t s v)
    (O : OutsideP (fun b => ∃ i, i < 571 ∧ s.block.get i = b) s s') (V : View m' s' v') (hm : m' ≤ 29) (hm1 : 1 ≤ m') {w' : Nat → Nat} (D' : DynOk m' w' v')
    (aw : ∀ b, (∃ i, i < 571 ∧ s.block.get i = b) → Away (2 * m' - 1) b v'.block.get v'.stock.get v'.avail)
    (cnt : v'.avail + leads v.freq.get (2 * m - 1) = v.avail + leads v'.freq.get (2 * m' - 1)) (A' : Agree m' t' v') (low : v'.freq.get 0 ≤ total' + 2)
    (pads : ∀ i, 2 * m' - 1 ≤ i → i < 256 → v'.block.get i = 0) : DynOk 286 w s' ∧ Beside m' total' t' s' v' := by
  have xc := X.cnt
  have eq := X.view.avail
  have eq' := V.avail
  have fe : leads s'.freq.get 571 = leads s.freq.get 571 := leads_congr _ _ _ (fun i hi => O.freq i (by omega))
  have l1 := leads_pos v'.freq.get (2 * m' - 1) (by omega)
  have l2 := leads_le v'.freq.get (2 * m' - 1)
  refine ⟨⟨⟨V.sz, D.inv.tree.congr (by omega) (fun i hi => O.child i (by omega)) (fun i hi => O.parent i (by omega)) (fun c hc => O.sNode c (by omega)),
    D.inv.weight.congr (fun i hi => O.child i (by omega)) (fun i hi => O.freq i (by omega)), ?_, by rw [O.freq 0 (by omega)]; exact D.inv.cap, ?_⟩,
    by rw [O.nMax, D.size], by rw [O.freq 0 (by omega)]; exact D.cap⟩, V, ⟨_, D'⟩, A', low, pads, ?_, ?_⟩
  · refine D.inv.block.restock (fun i hi => O.block i (by omega)) (fun i hi => O.edge _ ⟨i, hi, rfl⟩) (fun i hi => O.freq i (by omega)) ?_ ?_ ?_
    · intro a a1 a2
      rw [eq'] at a1
      have := D'.inv.block.free a a1 a2
      rw [V.stock a a2]
      exact ⟨this.1, this.2.1, fun i hi => ((aw _ ⟨i, hi, rfl⟩).2 a a1 a2).symm⟩
    · intro a a' a1 a2 a3 a4 e
      rw [V.stock a a2, V.stock a' a4] at e
      rw [eq'] at a1 a3
      exact D'.inv.block.inj a a' a1 a2 a3 a4 e
    · simp only [show 2 * 286 - 1 = 571 from rfl]
      omega
  · intro c hc
    have o := sNode_at D.inv (by omega) hc
    rw [O.sNode c (by omega), O.freq _ (by omega)]
    exact D.inv.leafw c hc
  · intro i j hi hj
    rw [O.block i (by omega)]
    exact ((aw _ ⟨i, hi, rfl⟩).1 j hj).symm
  · rw [fe]
    omega

/-- Counting a distance. -/
theorem Both.dist {k : Nat} {t : Tree} {P P' : Dist} {s : Dyn} (h : Both k t P s) (hk : k < 30000) {c : Nat} (hc : c < P.m) (C : P.Count c P') :
    ∃ s', updateP (c + 314) s = .ok s' ∧ Both (k + 1) t P' s' := by
  obtain ⟨w, D⟩ := h.ok
  have le := h.le
  have m2 := h.m2
  have ht : s.totalP < 32768 := by have := h.total; omega
  unfold Dist.Count at C
  rw [if_neg (by omega)] at C
  subst C
  rcases h.p with ⟨m1, X⟩ | ⟨m1, v, X⟩
  · obtain ⟨b, S, aw⟩ := X.solo
    have c0 : c = 0 := by omega
    subst c0
    have e : updateP (0 + 314) s = .ok { s with totalP := s.totalP + 1 } := by
      unfold updateP
      rw [if_neg (by omega), ok_bind, rd_ok (by rw [D.inv.sz.sNode]; omega), ok_bind, S.sNode, upLoop, if_pos rfl, ok_bind, Nat.mod_eq_of_lt (by omega)]
    have z := D.inv.sz
    have I := D.inv
    rw [e]
    refine ⟨_, rfl, ⟨w, ⟨⟨z.child, z.parent, z.block, z.edge, z.stock, z.sNode, z.freq⟩, I.tree, I.weight, I.block, I.cap, I.leafw⟩, D.size, D.cap⟩, ⟨h.agree.node, h.agree.freq⟩,
      h.n1, h.most, by simp only []; rw [h.total], by simp only []; omega, h.nn, h.next, h.m1, h.m2, by have := h.low; simp only []; omega, Or.inl ⟨m1, ?_⟩⟩
    simp only []
    rw [if_pos m1]
    exact ⟨X.tree, ⟨b, ⟨S.child, S.sNode, S.freq, S.block, S.edge, S.num, S.pads⟩, aw⟩, X.spare, X.cnt⟩
  · obtain ⟨wv, V⟩ := X.ok
    have aw := X.awayP D
    have hlt : v.freq.get 0 < 32768 := by have := X.low; omega
    obtain ⟨s', v', e, V', D', A', O, e1, e2, F, r0⟩ := updateP_view m1 (by omega) X.view V X.agree hc hlt ht aw
    have lo := X.low
    obtain ⟨D2, X2⟩ := Both.under (total' := P.total + 1) D X O V' m2 h.m1 D' (fun b hb => (F.blocks.away b (aw b hb)).2) F.blocks.cnt A' (by omega)
      (fun i i1 i2 => by rw [F.blocks.block i i1]; exact X.pads i i1 i2)
    refine ⟨s', e, ⟨w, D2⟩, ⟨fun i hi => by rw [O.child i (by omega)]; exact h.agree.node i hi, fun i hi => by rw [O.freq i (by omega)]; exact h.agree.freq i hi⟩,
      by rw [O.n1, h.n1], by rw [e1, h.most], by rw [e2, h.total], by simp only []; omega, by rw [O.nn, h.nn], by rw [O.next, h.next], h.m1, h.m2,
      by rw [O.freq 0 (by omega)]; have := h.low; omega, Or.inr ⟨m1, v', ?_⟩⟩
    simp only []
    rw [if_neg (by omega)]
    exact X2

/-- The distance tree with two symbols, as a tree of its own. -/
def pairV (S : Dyn) (b : Nat) : Dyn :=
  { S with
    child := (((Arr.mk' 884 0).upd 0 2).upd 1 65535).upd 2 65534
    parent := Arr.mk' 884 0
    sNode := ((Arr.mk' 442 0).upd 0 1).upd 1 2
    freq := (((Arr.mk' 884 0).upd 0 2).upd 1 1).upd 2 1
    block := (((Arr.mk' 884 0).upd 0 883).upd 1 b).upd 2 b
    edge := (Arr.mk' 884 0).upd b 1
    nMax := 2 }

/-- A second distance. -/
theorem Alone.grow {k : Nat} {t : Tree} {P : Dist} {s : Dyn} (h : Both k t P s) (hk : k < 30000) (m1 : P.m = 1) (X : Alone P.t s) :
    ∃ s', makeNewNode 1 s = .ok s' ∧ (∃ w, DynOk 286 w s') ∧ Agree 286 t s' ∧ s'.n1 = s.n1 ∧ s'.mostP = 630 ∧ s'.totalP = s.totalP + 1 ∧ s'.nn = s.nn ∧
      s'.nextcount = s.nextcount ∧ s'.freq.get 0 = s.freq.get 0 ∧
      ∃ v, Beside 2 (P.total + 1) ((P.t.sprout 1).count 2 1) s' v := by
  obtain ⟨w, D⟩ := h.ok
  obtain ⟨b, S, aw⟩ := X.solo
  have I := D.inv
  have cnt := X.cnt
  have lle := leads_le s.freq.get 571
  have lpos := leads_pos s.freq.get 571 (by omega)
  have mp : s.mostP = 628 := by rw [h.most, m1]
  have num := S.num
  have fr := I.block.free s.avail (Nat.le_refl _) (by omega)
  have ht : s.totalP < 32768 := by have := h.total; have := h.le; omega
  obtain ⟨Z, Q, e⟩ := makeNewNode_pre (m := 1) I.sz (by omega) (by omega) (by omega) (by rw [mp, S.child]; omega) (by omega) fr.2.1 fr.1 (by rw [mp, S.block]; omega)
    (fun _ => by rw [S.block, S.edge]; omega) (by rw [mp]; exact S.pads 3 (by omega) (by omega)) ht
  rw [mp, upLoop, if_pos rfl, ok_bind] at e
  have nb : s.stock.get s.avail ≠ b := aw.2 _ (Nat.le_refl _) (by omega)
  have zf : ∀ i, i < 628 → Z.freq.get i = s.freq.get i := fun i hi => by
    rw [Q.freq, mp, if_neg (by omega), if_neg (by omega), if_neg (by omega)]
  have zc : ∀ i, i < 628 → Z.child.get i = s.child.get i := fun i hi => by
    rw [Q.child, mp, if_neg (by omega), if_neg (by omega), if_neg (by omega)]
  have zp : ∀ i, i < 628 → Z.parent.get i = s.parent.get i := fun i hi => by
    rw [Q.parent, mp, if_neg (by omega), if_neg (by omega)]
  have zs : ∀ i, i < 314 → Z.sNode.get i = s.sNode.get i := fun i hi => by
    rw [Q.sNode, mp, S.child, if_neg (by omega), if_neg (by omega)]
  have zb : ∀ i, i < 628 → Z.block.get i = s.block.get i := fun i hi => by
    rw [Q.block, mp, if_neg (by omega), if_neg (by omega)]
  have za : Z.avail = s.avail := by rw [Q.avail, mp, S.freq, if_pos rfl]
  have ze : ∀ i, i < 571 → Z.edge.get (s.block.get i) = s.edge.get (s.block.get i) := fun i hi => by
    rw [Q.edge, if_neg (fr.2.2 i hi), if_neg]
    rw [S.block]
    exact fun g => aw.1 i hi g.1
  have fe : leads Z.freq.get 571 = leads s.freq.get 571 := leads_congr _ _ _ (fun i hi => zf i (by omega))
  have z := Q.sz
  refine ⟨_, e, ⟨w, ⟨⟨⟨z.child, z.parent, z.block, z.edge, z.stock, z.sNode, z.freq⟩,
    I.tree.congr (by omega) (fun i hi => zc i (by omega)) (fun i hi => zp i (by omega)) (fun c hc => zs c (by omega)),
    I.weight.congr (fun i hi => zc i (by omega)) (fun i hi => zf i (by omega)), ?_, by simp only []; rw [zf 0 (by omega)]; exact I.cap, ?_⟩,
    by simp only []; rw [Q.nMax, D.size], by simp only []; rw [zf 0 (by omega)]; exact D.cap⟩⟩, ⟨fun i hi => by simp only []; rw [zc i (by omega)]; exact h.agree.node i hi,
    fun i hi => by simp only []; rw [zf i (by omega)]; exact h.agree.freq i hi⟩, Q.n1, by simp only []; rw [Q.mostP, mp],
    by simp only []; rw [Q.totalP]; omega, Q.nn, Q.next, zf 0 (by omega), pairV Z b, ?_⟩
  · refine I.block.restock (fun i hi => zb i (by omega)) (fun i hi => ze i hi) (fun i hi => zf i (by omega)) ?_ ?_ ?_
    · intro a a1 a2
      simp only [za] at a1
      simp only [Q.stock]
      exact I.block.free a a1 a2
    · intro a a'
      simp only [Q.stock, za]
      exact I.block.inj a a'
    · simp only [za]
      exact I.block.cnt
  · intro c hc
    have o := sNode_at D.inv (by omega) hc
    simp only []
    rw [zs c (by omega), zf _ (by omega)]
    exact D.inv.leafw c hc
  · have vz : DynSz (pairV Z b) := ⟨rfl, rfl, rfl, rfl, z.stock, rfl, rfl⟩
    have c0 : (pairV Z b).child.get 0 = 2 := by simp [pairV, Arr.get_upd]
    have c1 : (pairV Z b).child.get 1 = 65535 := by simp [pairV, Arr.get_upd]
    have c2 : (pairV Z b).child.get 2 = 65534 := by simp [pairV, Arr.get_upd]
    have f0 : (pairV Z b).freq.get 0 = 2 := by simp [pairV, Arr.get_upd]
    have f1 : (pairV Z b).freq.get 1 = 1 := by simp [pairV, Arr.get_upd]
    have f2 : (pairV Z b).freq.get 2 = 1 := by simp [pairV, Arr.get_upd]
    have b0 : (pairV Z b).block.get 0 = 883 := by simp [pairV, Arr.get_upd]
    have b1 : (pairV Z b).block.get 1 = b := by simp [pairV, Arr.get_upd]
    have b2 : (pairV Z b).block.get 2 = b := by simp [pairV, Arr.get_upd]
    have b3 : ∀ i, 3 ≤ i → (pairV Z b).block.get i = 0 := by
      intro i hi
      simp only [pairV, Arr.get_upd]
      rw [if_neg (by omega), if_neg (by omega), if_neg (by omega), Arr.get_mk']
    have e0 : (pairV Z b).edge.get 883 = 0 := by
      simp only [pairV, Arr.get_upd]
      rw [if_neg (by omega), Arr.get_mk']
    have e1 : (pairV Z b).edge.get b = 1 := by simp [pairV, Arr.get_upd]
    have s0 : (pairV Z b).sNode.get 0 = 1 := by simp [pairV, Arr.get_upd]
    have s1 : (pairV Z b).sNode.get 1 = 2 := by simp [pairV, Arr.get_upd]
    have p0 : ∀ i, (pairV Z b).parent.get i = 0 := by
      intro i
      exact Arr.get_mk' _ _ _
    have i3 : ∀ i, i < 2 * 2 - 1 → i = 0 ∨ i = 1 ∨ i = 2 := fun i hi => by omega
    have ld : leads (pairV Z b).freq.get 3 = 2 := by
      simp [leads, f0, f1, f2]
    refine ⟨⟨⟨z.child, z.parent, z.block, z.edge, z.stock, z.sNode, z.freq⟩, vz, ?_, ?_, ?_, ?_, ?_, ?_, ?_, fun _ _ => rfl, rfl⟩, ⟨fun _ => 1, ⟨vz, ?_, ?_, ?_, ?_, ?_⟩, rfl, ?_⟩, ?_,
      ?_, fun i i1 i2 => b3 i i1, ?_, ?_⟩
    · intro i hi
      rcases i3 i hi with rfl | rfl | rfl <;> simp only [c0, c1, c2, Q.child, mp, S.child, psi] <;> rfl
    · intro i j hi
      have : i = 1 ∨ i = 2 := by omega
      rcases this with rfl | rfl <;> simp only [p0, Q.parent, mp] <;> rfl
    · intro c hc
      have : c = 0 ∨ c = 1 := by omega
      rcases this with rfl | rfl <;> simp only [s0, s1, Q.sNode, mp, S.child] <;> rfl
    · intro i j hi
      have : i = 1 ∨ i = 2 := by omega
      rcases this with rfl | rfl <;> simp only [f1, f2, Q.freq, mp, S.freq] <;> rfl
    · simp only [Q.freq, mp]
      rfl
    · intro i j hi
      simp only [Q.block, mp, S.freq, S.block]
      by_cases g1 : i = 1
      · subst g1; rw [b1]; rfl
      by_cases g2 : i = 2
      · subst g2; rw [b2]; rfl
      rw [if_neg (by omega), if_neg (by omega), b3 i (by omega), S.pads i j hi]
    · intro i j hi
      have : (pairV Z b).block.get i = b := by
        have : i = 1 ∨ i = 2 := by omega
        rcases this with rfl | rfl
        · exact b1
        · exact b2
      rw [this, e1]
      simp only [Q.edge, mp, S.block]
      rw [if_neg (fun g => nb g.symm), if_pos ⟨trivial, trivial⟩, S.edge]
    · refine ⟨?_, ?_, ?_⟩
      · intro i hi
        rcases i3 i hi with rfl | rfl | rfl
        · rw [c0]; exact ⟨Or.inr ⟨1, by omega, by omega, rfl⟩, by unfold ownF; rw [if_neg (by omega), p0]⟩
        · rw [c1]; exact ⟨Or.inl ⟨0, by omega, rfl⟩, by unfold ownF; rw [if_pos (by omega)]; exact s0⟩
        · rw [c2]; exact ⟨Or.inl ⟨1, by omega, rfl⟩, by unfold ownF; rw [if_pos (by omega)]; exact s1⟩
      · rintro x (⟨c, hc, rfl⟩ | ⟨q, q1, q2, rfl⟩)
        · unfold ownF
          rw [if_pos (by omega), show 65535 - (65535 - c) = c by omega]
          have : c = 0 ∨ c = 1 := by omega
          rcases this with rfl | rfl
          · rw [s0, c1]; exact ⟨by omega, rfl⟩
          · rw [s1, c2]; exact ⟨by omega, rfl⟩
        · unfold ownF
          rw [if_neg (by omega), p0, c0]
          exact ⟨by omega, by omega⟩
      · intro q q1 q2
        rw [p0, p0]
        exact ⟨by omega, rfl⟩
    · refine ⟨?_, ?_, ?_⟩
      · intro i j hij hj
        rcases i3 i (by omega) with rfl | rfl | rfl <;> rcases i3 j hj with rfl | rfl | rfl <;> simp only [f0, f1, f2] <;> omega
      · intro i hi
        rcases i3 i hi with rfl | rfl | rfl <;> simp only [f0, f1, f2] <;> omega
      · intro i q hi q1 q2 g
        have : q = 1 := by omega
        subst this
        rcases i3 i hi with rfl | rfl | rfl
        · simp only [f0, f1, f2, if_true]
        · rw [c1] at g; omega
        · rw [c2] at g; omega
    · refine ⟨?_, ?_, ?_, ?_, ?_, ?_, ?_, ?_, b3 3 (by omega)⟩
      · intro i hi
        rcases i3 i hi with rfl | rfl | rfl <;> simp only [b0, b1, b2] <;> omega
      · intro i j hi hj
        rcases i3 i hi with rfl | rfl | rfl <;> rcases i3 j hj with rfl | rfl | rfl <;> simp [f0, f1, f2, b0, b1, b2]
      · intro i hi
        rcases i3 i hi with rfl | rfl | rfl <;> simp only [b0, b1, b2, e0, e1] <;> omega
      · intro i hi
        rcases i3 i hi with rfl | rfl | rfl <;> simp only [b0, b1, b2, e0, e1, f0, f1, f2]
      · intro i j hi
        rcases i3 i hi with rfl | rfl | rfl <;> simp only [b0, b1, b2, e0, e1] <;> intro hj
        · omega
        · have : j = 0 := by omega
          subst this; simp only [f0, f1]; omega
        · have : j = 0 := by omega
          subst this; simp only [f0, f2]; omega
      · intro a a1 a2
        have a1 : s.avail ≤ a := by rw [← za]; exact a1
        have fa := I.block.free a a1 a2
        show 1 ≤ Z.stock.get a ∧ Z.stock.get a < 884 ∧ _
        rw [Q.stock]
        refine ⟨fa.1, fa.2.1, fun i hi => ?_⟩
        show _ ≠ Z.stock.get a
        rw [Q.stock]
        rcases i3 i hi with rfl | rfl | rfl
        · rw [b0]; exact (X.spare.2 a a1 a2).symm
        · rw [b1]; exact (aw.2 a a1 a2).symm
        · rw [b2]; exact (aw.2 a a1 a2).symm
      · intro a a' a1 a2 a3 a4 g
        have a1 : s.avail ≤ a := by rw [← za]; exact a1
        have a3 : s.avail ≤ a' := by rw [← za]; exact a3
        have g : Z.stock.get a = Z.stock.get a' := g
        rw [Q.stock, Q.stock] at g
        exact I.block.inj a a' a1 a2 a3 a4 g
      · simp only [show 2 * 2 - 1 = 3 from rfl, ld]
        show _ ≤ Z.avail ∧ Z.avail + _ ≤ _
        omega
    · rw [f0]; omega
    · intro c hc
      have : c = 0 ∨ c = 1 := by omega
      rcases this with rfl | rfl
      · rw [s0, f1]
      · rw [s1, f2]
    · rw [f0]; omega
    · rw [X.tree]
      refine ⟨fun i hi => ?_, fun i hi => ?_⟩
      · rcases i3 i hi with rfl | rfl | rfl <;> simp only [c0, c1, c2] <;> decide
      · rcases i3 i hi with rfl | rfl | rfl <;> simp only [f0, f1, f2] <;> decide
    · rw [f0]; omega
    · intro i j hi hj
      simp only []
      rw [zb i (by omega)]
      rcases i3 j hj with rfl | rfl | rfl
      · rw [b0]; exact X.spare.1 i hi
      · rw [b1]; exact aw.1 i hi
      · rw [b2]; exact aw.1 i hi
    · simp only [show 2 * 2 - 1 = 3 from rfl, ld, za, fe]
      omega

/-- One more distance. -/
theorem Both.grow {k : Nat} {t : Tree} {P P' : Dist} {s : Dyn} (h : Both k t P s) (hk : k < 30000) (hm : P.m < 29)
    (C : Dist.Count ⟨P.m + 1, P.total, P.t.sprout P.m⟩ P.m P') :
    ∃ s', makeNewNode P.m s = .ok s' ∧ s'.nextcount = s.nextcount ∧ s'.nn = s.nn ∧ P'.m = P.m + 1 ∧ Both k t P' { s' with nextcount := 64 * (P.m + 1) } := by
  have le := h.le
  have m1 := h.m1
  unfold Dist.Count at C
  simp only [] at C
  rw [if_neg (by omega), if_neg (by omega)] at C
  subst C
  rcases h.p with ⟨q1, X⟩ | ⟨q1, v, X⟩
  · obtain ⟨s', e, ⟨w, D⟩, A, g1, g2, g3, g4, g5, g6, v, Y⟩ := X.grow h hk q1
    rw [q1]
    have V := Y.view
    have z := D.inv.sz
    have I := D.inv
    refine ⟨s', e, g5, g4, rfl, ⟨w, ⟨⟨z.child, z.parent, z.block, z.edge, z.stock, z.sNode, z.freq⟩, I.tree, I.weight, I.block, I.cap, I.leafw⟩, D.size, D.cap⟩,
      ⟨A.node, A.freq⟩, by simp only []; rw [g1, h.n1], g2, by simp only []; rw [g3, h.total], by simp only []; omega, by simp only []; rw [g4, h.nn], rfl, by simp only []; omega,
      by simp only []; omega, by simp only []; rw [g6]; exact h.low, Or.inr ⟨by simp only []; omega, v, ?_⟩⟩
    exact ⟨⟨⟨z.child, z.parent, z.block, z.edge, z.stock, z.sNode, z.freq⟩, V.vz, V.child, V.parent, V.sNode, V.freq, V.root, V.block, V.edge, V.stock, V.avail⟩,
      Y.ok, Y.agree, Y.low, Y.pads, Y.apart, Y.cnt⟩
  · obtain ⟨w, D⟩ := h.ok
    obtain ⟨wv, Dv⟩ := X.ok
    have lo := X.low
    have xc := X.cnt
    have va := X.view.avail
    have l2 := leads_le s.freq.get 571
    obtain ⟨s', v', w', e, V, D', A', O, g1, g2, pads, aw, cnt, r0⟩ := makeNewNode_view q1 (by omega) X.view Dv X.agree (by omega) (by rw [h.total]; omega) h.most X.pads
      (by omega) (X.awayP D)
    rw [show 2 * P.m + 1 = 2 * (P.m + 1) - 1 by omega] at aw cnt pads
    obtain ⟨D2, Y⟩ := Both.under (total' := P.total + 1) D X O V (by omega) (by omega) D' aw cnt A' (by omega) pads
    have V := Y.view
    have z := D2.inv.sz
    have I := D2.inv
    refine ⟨s', e, O.next, O.nn, rfl, ⟨w, ⟨⟨z.child, z.parent, z.block, z.edge, z.stock, z.sNode, z.freq⟩, I.tree, I.weight, I.block, I.cap, I.leafw⟩, D2.size, D2.cap⟩,
      ⟨fun i hi => by simp only []; rw [O.child i (by omega)]; exact h.agree.node i hi, fun i hi => by simp only []; rw [O.freq i (by omega)]; exact h.agree.freq i hi⟩,
      by simp only []; rw [O.n1, h.n1], by simp only []; omega, by simp only []; rw [g2, h.total], by simp only []; omega, by simp only []; rw [O.nn, h.nn], rfl, by simp only []; omega,
      by simp only []; omega, by simp only []; rw [O.freq 0 (by omega)]; exact h.low, Or.inr ⟨by simp only []; omega, v', ?_⟩⟩
    exact ⟨⟨⟨z.child, z.parent, z.block, z.edge, z.stock, z.sNode, z.freq⟩, V.vz, V.child, V.parent, V.sNode, V.freq, V.root, V.block, V.edge, V.stock, V.avail⟩,
      Y.ok, Y.agree, Y.low, Y.pads, Y.apart, Y.cnt⟩

end Lha
