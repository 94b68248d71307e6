import Verif.Spec.Sibling
import Verif.Proof.DynCode
/-!
# The arrays of the program are the tree of the specification
-/

namespace Lha

open Spec

variable {n : Nat}

theorem leader_eq {f : Nat → Nat} {p q : Nat} (hq : q ≤ p) (he : f q = f p) (hl : q = 0 ∨ f q ≠ f (q - 1))
    (hs : ∀ i, q ≤ i → i ≤ p → f p ≤ f i ∧ f i ≤ f q) : leader f p = q := by
  induction p with
  | zero => rw [leader]; omega
  | succ p ih =>
    rw [leader]
    by_cases g : q = p + 1
    · subst g
      rw [if_neg (by rcases hl with h | h <;> [omega; exact fun e => h (by rw [Nat.add_sub_cancel, e])])]
    · have h1 := hs p (by omega) (by omega)
      rw [if_pos (by omega)]
      exact ih (by omega) (by omega) (fun i a b => by have := hs i a (by omega); have := hs p (by omega) (by omega); omega)

theorem place_eq {node : Nat → Node} {v : Node} {i N : Nat} (hi : i < N) (h : node i = v) (hu : ∀ j, j < N → node j = v → j = i) :
    place node v N = i := by
  induction N with
  | zero => omega
  | succ N ih =>
    rw [place]
    by_cases g : i = N
    · rw [if_pos (by rw [← g, h]), g]
    · rw [if_neg (fun e => g (hu N (by omega) e).symm)]
      exact ih (by omega) (fun j hj => hu j (by omega))

/-- The meaning of an entry of `child`. -/
def nodeOf (v : Nat) : Node := if 32768 ≤ v then .leaf (65535 - v) else .pair (v / 2)

theorem nodeOf_inj {u v : Nat} (hn : n ≤ 314) (hu : ValidF n u) (hv : ValidF n v) (h : nodeOf u = nodeOf v) : u = v := by
  have hu := hu.lt hn
  have hv := hv.lt hn
  unfold nodeOf at h
  split at h <;> split at h <;> simp only [Node.leaf.injEq, Node.pair.injEq, reduceCtorEq] at h <;> omega

theorem nodeOf_pair {v k : Nat} (hk : k < n) (hn : n ≤ 314) (hv : ValidF n v) : nodeOf v = .pair k ↔ v = 2 * k := by
  have hv := hv.lt hn
  unfold nodeOf
  split
  · simp only [reduceCtorEq, false_iff]; omega
  · simp only [Node.pair.injEq]; omega

theorem nodeOf_leaf {v c : Nat} (hc : c < n) (hn : n ≤ 314) (hv : ValidF n v) : nodeOf v = .leaf c ↔ v = 65535 - c := by
  have hv := hv.lt hn
  unfold nodeOf
  split
  · simp only [Node.leaf.injEq]; omega
  · simp only [reduceCtorEq, false_iff]; omega

/-- The arrays hold the tree `t`. -/
structure Agree (n : Nat) (t : Tree) (s : Dyn) : Prop where
  node : ∀ i, i < 2 * n - 1 → t.node i = nodeOf (s.child.get i)
  freq : ∀ i, i < 2 * n - 1 → t.freq i = s.freq.get i

/-- The arrays hold the tree `t`, but the root counts one more already. -/
structure Ahead (n : Nat) (t : Tree) (s : Dyn) : Prop where
  node : ∀ i, i < 2 * n - 1 → t.node i = nodeOf (s.child.get i)
  freq : ∀ i, 1 ≤ i → i < 2 * n - 1 → t.freq i = s.freq.get i
  root : t.freq 0 + 1 = s.freq.get 0

theorem ucLoop_spec (hn1 : 2 ≤ n) (hn : n ≤ 314) (f : Nat) : ∀ (p g : Nat) (w : Nat → Nat) (s s' : Dyn) (t : Tree), DynInv n p w s →
    1 ≤ p → p < 2 * n - 1 → p < g → Ahead n t s → ucLoop f p s = .ok s' → Agree n (t.climb n g p) s' := by
  induction f with
  | zero => intro p g w s s' t _ _ _ _ _ h; cases h
  | succ f ih =>
    intro p g w s s' t h h1 hp hg A e
    obtain ⟨g, rfl⟩ : ∃ g', g = g' + 1 := ⟨g - 1, by omega⟩
    obtain ⟨x, s1, e1, hx, hk, I, K, q, q1, q2, q3, q4, q5, q6, q7⟩ := swapInc_ok hn1 hn h h1 hp
    rw [ucLoop, e1, ok_bind] at e
    simp only [] at e
    have hroot := h.weight.sum 0 1 (by omega) (by omega) (by omega) (h.tree.root hn1)
    rw [if_neg (by omega), if_pos rfl] at hroot
    have hp2 := h.weight.pos 2 (by omega)
    have hl : leader t.freq p = q := by
      refine leader_eq q2 (by rw [A.freq q q1 (by omega), A.freq p h1 hp, q3]) (Or.inr ?_) ?_
      · by_cases g0 : q = 1
        · subst g0
          rw [A.freq 1 (by omega) (by omega)]
          have := A.root
          simp only [Nat.sub_self]
          simp only [Nat.mul_one, show 2 - 1 = 1 from rfl] at hroot
          omega
        · rw [A.freq q q1 (by omega), A.freq (q - 1) (by omega) (by omega)]; omega
      · intro i a b
        rw [A.freq p h1 hp, A.freq i (by omega) (by omega), A.freq q q1 (by omega)]
        exact ⟨h.weight.mono i p b hp, h.weight.mono q i a (by omega)⟩
    have A1 : Ahead n (t.promote p) s1 := by
      unfold Tree.promote
      simp only [hl]
      refine ⟨?_, ?_, ?_⟩
      · intro i hi
        simp only []
        rw [q5, A.node p hp, A.node q (by omega), A.node i hi]
        split
        · rfl
        · split <;> rfl
      · intro i a b
        simp only []
        rw [q6, A.freq q q1 (by omega), A.freq i a b]
      · simp only []
        rw [if_neg (by omega), q6, if_neg (by omega)]
        exact A.root
    have pq := I.tree.parent_of hn q1 (by omega)
    rw [← q7] at pq
    have hpl : place (t.promote p).node (.pair ((leader t.freq p + 1) / 2)) (2 * n - 1) = x := by
      rw [hl]
      refine place_eq (by omega) ?_ ?_
      · rw [A1.node x (by omega), nodeOf_pair (by omega) hn (I.tree.node x (by omega)).1, pq.2]
      · intro j hj ej
        rw [A1.node j hj, nodeOf_pair (by omega) hn (I.tree.node j hj).1] at ej
        exact I.tree.inj hj (by omega) (by rw [ej, pq.2])
    rw [Tree.climb, if_neg (by omega), hpl]
    by_cases h0 : x = 0
    · rw [if_pos h0] at e
      cases e
      subst h0
      obtain ⟨g, rfl⟩ : ∃ g', g = g' + 1 := ⟨g - 1, by omega⟩
      rw [Tree.climb, if_pos rfl]
      refine ⟨A1.node, ?_⟩
      intro i hi
      simp only []
      by_cases hi0 : i = 0
      · rw [if_pos hi0, hi0, A1.root]
      · rw [if_neg hi0, A1.freq i (by omega) hi]
    · rw [if_neg h0] at e
      exact ih x g _ s1 s' _ I (by omega) (by omega) (by omega) A1 e

/-! ### The canonical tree is unique -/

theorem canon_unique {lt : Nat → Nat → Prop} {w : Nat → Nat} {t t' : Tree} (htot : ∀ c d, c < n → d < n → c ≠ d → lt c d ∨ lt d c)
    (C : Canon n lt w t) (C' : Canon n lt w t') (m : Nat) : ∀ i, 2 * n - 1 - m ≤ i → i < 2 * n - 1 →
    t.node i = t'.node i ∧ t.freq i = t'.freq i := by
  -- a leaf in one tree where the other has an inner node
  have mixed : ∀ (t t' : Tree) (i c k : Nat), Canon n lt w t → Canon n lt w t' → i < 2 * n - 1 →
      (∀ j, i < j → j < 2 * n - 1 → t.node j = t'.node j ∧ t.freq j = t'.freq j) → c < n → 1 ≤ k → k < n →
      t.node i = .leaf c → t'.node i = .pair k → False := by
    intro t t' i c k C C' hi ih hc k1 k2 e e'
    obtain ⟨a, a1, a2⟩ := C.pairs k k1 k2
    obtain ⟨b, b1, b2⟩ := C'.leafs c hc
    have ha : a < i := by
      by_contra g
      by_cases ga : a = i
      · rw [ga, e] at a2; cases a2
      · have := (ih a (by omega) a1).1
        rw [a2] at this
        have := C'.inj a i a1 hi (by rw [← this, e'])
        omega
    have hb : b < i := by
      by_contra g
      by_cases gb : b = i
      · rw [gb, e'] at b2; cases b2
      · have := (ih b (by omega) b1).1
        rw [b2] at this
        have := C.inj b i b1 hi (by rw [this, e])
        omega
    have wi : t.freq i = w c := by
      rcases C.kind i hi with ⟨c', _, h2, h3⟩ | ⟨k', _, _, h3, _⟩
      · rw [e] at h2; cases h2; exact h3
      · rw [e] at h3; cases h3
    have wb : t'.freq b = w c := by
      rcases C'.kind b b1 with ⟨c', _, h2, h3⟩ | ⟨k', _, _, h3, _⟩
      · rw [b2] at h2; cases h2; exact h3
      · rw [b2] at h3; cases h3
    have fa : t.freq a = t.freq (2 * k - 1) + t.freq (2 * k) := by
      rcases C.kind a a1 with ⟨c', _, h2, h3⟩ | ⟨k', _, _, h3, _, h5⟩
      · rw [a2] at h2; cases h2
      · rw [a2] at h3; cases h3; exact h5
    obtain ⟨ik, fi⟩ : i < 2 * k - 1 ∧ t'.freq i = t'.freq (2 * k - 1) + t'.freq (2 * k) := by
      rcases C'.kind i hi with ⟨c', _, h2, h3⟩ | ⟨k', _, _, h3, h4, h5⟩
      · rw [e'] at h2; cases h2
      · rw [e'] at h3; cases h3; exact ⟨h4, h5⟩
    have := (ih (2 * k - 1) ik (by omega)).2
    have := (ih (2 * k) (by omega) (by omega)).2
    have := C.sorted a i (by omega) hi
    have := C'.tie b i c k hb hi b2 e'
    omega
  induction m with
  | zero => intro i h1 h2; omega
  | succ m ih =>
    intro i h1 hi
    by_cases g : 2 * n - 1 - m ≤ i
    · exact ih i g hi
    · have ih' : ∀ j, i < j → j < 2 * n - 1 → t.node j = t'.node j ∧ t.freq j = t'.freq j := fun j a b => ih j (by omega) b
      rcases C.kind i hi with ⟨c, c1, c2, c3⟩ | ⟨k, k1, k2, k3, k4, k5⟩
      · rcases C'.kind i hi with ⟨d, d1, d2, d3⟩ | ⟨l, l1, l2, l3, l4, l5⟩
        · have : c = d := by
            by_contra hcd
            obtain ⟨a, a1, a2⟩ := C.leafs d d1
            obtain ⟨b, b1, b2⟩ := C'.leafs c c1
            have ha : a < i := by
              by_contra g
              by_cases ga : a = i
              · rw [ga, c2] at a2; cases a2; exact hcd rfl
              · have := (ih' a (by omega) a1).1
                rw [a2] at this
                have := C'.inj a i a1 hi (by rw [← this, d2])
                omega
            have hb : b < i := by
              by_contra g
              by_cases gb : b = i
              · rw [gb, d2] at b2; cases b2; exact hcd rfl
              · have := (ih' b (by omega) b1).1
                rw [b2] at this
                have := C.inj b i b1 hi (by rw [this, c2])
                omega
            rcases htot c d c1 d1 hcd with h | h
            · have := C.leafOrder i a c d hi a1 c2 a2 h; omega
            · have := C'.leafOrder i b d c hi b1 d2 b2 h; omega
          subst this
          exact ⟨by rw [c2, d2], by rw [c3, d3]⟩
        · exact (mixed t t' i c l C C' hi ih' c1 l1 l2 c2 l3).elim
      · rcases C'.kind i hi with ⟨d, d1, d2, d3⟩ | ⟨l, l1, l2, l3, l4, l5⟩
        · exact (mixed t' t i d k C' C hi (fun j a b => ⟨(ih' j a b).1.symm, (ih' j a b).2.symm⟩) d1 k1 k2 d2 k3).elim
        · have : k = l := by
            by_contra hkl
            obtain ⟨a, a1, a2⟩ := C.pairs l l1 l2
            obtain ⟨b, b1, b2⟩ := C'.pairs k k1 k2
            have ha : a < i := by
              by_contra g
              by_cases ga : a = i
              · rw [ga, k3] at a2; cases a2; exact hkl rfl
              · have := (ih' a (by omega) a1).1
                rw [a2] at this
                have := C'.inj a i a1 hi (by rw [← this, l3])
                omega
            have hb : b < i := by
              by_contra g
              by_cases gb : b = i
              · rw [gb, l3] at b2; cases b2; exact hkl rfl
              · have := (ih' b (by omega) b1).1
                rw [b2] at this
                have := C.inj b i b1 hi (by rw [this, k3])
                omega
            by_cases h : k < l
            · have := C.pairOrder i a k l hi a1 k3 a2 h; omega
            · have := C'.pairOrder i b l k hi b1 l3 b2 (by omega); omega
          subst this
          refine ⟨by rw [k3, l3], ?_⟩
          rw [k5, l5, (ih' (2 * k - 1) (by omega) (by omega)).2, (ih' (2 * k) (by omega) (by omega)).2]

theorem Spec.Canon.congr {lt lt' : Nat → Nat → Prop} {w w' : Nat → Nat} {t : Tree} (C : Canon n lt w t) (hw : ∀ c, c < n → w c = w' c)
    (hl : ∀ c d, c < n → d < n → lt' c d → lt c d) : Canon n lt' w' t := by
  refine ⟨?_, C.leafs, C.pairs, C.inj, C.sorted, ?_, C.pairOrder, C.tie⟩
  · intro i hi
    rcases C.kind i hi with ⟨c, c1, c2, c3⟩ | h
    · exact Or.inl ⟨c, c1, c2, by rw [c3, hw c c1]⟩
    · exact Or.inr h
  · intro i j c d hi hj e1 e2 h
    have hc : c < n := by
      rcases C.kind i hi with ⟨c', c1, c2, _⟩ | ⟨k, _, _, k3, _⟩
      · rw [e1] at c2; cases c2; exact c1
      · rw [e1] at k3; cases k3
    have hd : d < n := by
      rcases C.kind j hj with ⟨c', c1, c2, _⟩ | ⟨k, _, _, k3, _⟩
      · rw [e2] at c2; cases c2; exact c1
      · rw [e2] at k3; cases k3
    exact C.leafOrder i j c d hi hj e1 e2 (hl c d hc hd h)

/-- The tree in the arrays. -/
def treeOf (s : Dyn) : Tree := ⟨fun i => nodeOf (s.child.get i), s.freq.get⟩

theorem sNode_at {d : Nat} {w : Nat → Nat} {s : Dyn} (h : DynInv n d w s) (hn : n ≤ 314) {c : Nat} (hc : c < n) :
    s.sNode.get c < 2 * n - 1 ∧ s.child.get (s.sNode.get c) = 65535 - c := by
  have o := h.tree.owner (65535 - c) (Or.inl ⟨c, hc, rfl⟩)
  unfold ownF at o
  rw [if_pos (by omega), show 65535 - (65535 - c) = c from by omega] at o
  exact o

theorem canon_of {o : Nat → Nat} {w : Nat → Nat} {s : Dyn} (hn : n ≤ 314) (h : DynInv n 0 w s) (O : OrdF n o s.child.get s.freq.get) :
    Canon n (fun c d => o c < o d) w (treeOf s) := by
  have val := fun i (hi : i < 2 * n - 1) => (h.tree.node i hi).1
  have lf : ∀ i c, i < 2 * n - 1 → (treeOf s).node i = .leaf c → c < n ∧ s.child.get i = 65535 - c := by
    intro i c hi e
    have v := (val i hi).lt hn
    change nodeOf (s.child.get i) = _ at e
    unfold nodeOf at e
    split at e
    · cases e; exact ⟨by omega, by omega⟩
    · cases e
  have pr : ∀ i k, i < 2 * n - 1 → (treeOf s).node i = .pair k → 1 ≤ k ∧ k < n ∧ s.child.get i = 2 * k := by
    intro i k hi e
    have v := (val i hi)
    have v' := v.lt hn
    change nodeOf (s.child.get i) = _ at e
    unfold nodeOf at e
    split at e
    · cases e
    · cases e
      rcases v with ⟨c, _, _⟩ | ⟨k, h1, h2, h3⟩
      · omega
      · exact ⟨by omega, by omega, by omega⟩
  refine ⟨?_, ?_, ?_, ?_, h.weight.mono, ?_, ?_, ?_⟩
  · intro i hi
    obtain ⟨v, ow⟩ := h.tree.node i hi
    rcases v with ⟨c, c1, c2⟩ | ⟨k, k1, k2, k3⟩
    · refine Or.inl ⟨c, c1, (nodeOf_leaf c1 hn (val i hi)).2 c2, ?_⟩
      rw [← h.leafw c c1]
      unfold ownF at ow
      rw [c2, if_pos (by omega), show 65535 - (65535 - c) = c from by omega] at ow
      rw [ow]
      rfl
    · refine Or.inr ⟨k, k1, k2, (nodeOf_pair k2 hn (val i hi)).2 k3, ?_, ?_⟩
      · unfold ownF at ow
        rw [k3, if_neg (by omega)] at ow
        have := (h.tree.up k k1 k2).1
        omega
      · have := h.weight.sum i k hi k1 k2 k3
        change s.freq.get i = s.freq.get _ + s.freq.get _
        split at this <;> omega
  · intro c hc
    have o := sNode_at h hn hc
    exact ⟨_, o.1, (nodeOf_leaf hc hn (val _ o.1)).2 o.2⟩
  · intro k k1 k2
    have o := h.tree.owner (2 * k) (Or.inr ⟨k, k1, k2, rfl⟩)
    exact ⟨_, o.1, (nodeOf_pair k2 hn (val _ o.1)).2 o.2⟩
  · intro i j hi hj e
    exact h.tree.inj hi hj (nodeOf_inj hn (val i hi) (val j hj) e)
  · intro i j c d hi hj e1 e2 hlt
    obtain ⟨c1, c2⟩ := lf i c hi e1
    obtain ⟨d1, d2⟩ := lf j d hj e2
    exact O.leaf i j c d hi hj c1 d1 c2 d2 hlt
  · intro i j k l hi hj e1 e2 hlt
    obtain ⟨_, c1, c2⟩ := pr i k hi e1
    obtain ⟨_, d1, d2⟩ := pr j l hj e2
    exact O.pair i j k l hi hj c1 d1 c2 d2 hlt
  · intro i j c k hij hj e1 e2
    obtain ⟨c1, c2⟩ := lf i c (by omega) e1
    obtain ⟨_, d1, d2⟩ := pr j k hj e2
    exact O.tie i j hij hj (by omega) (by omega)

theorem Agree.place {d : Nat} {w : Nat → Nat} {s : Dyn} {t : Tree} (A : Agree n t s) (h : DynInv n d w s) (hn : n ≤ 314) {c : Nat} (hc : c < n) :
    place t.node (.leaf c) (2 * n - 1) = s.sNode.get c := by
  have o := sNode_at h hn hc
  refine place_eq o.1 ?_ ?_
  · rw [A.node _ o.1, nodeOf_leaf hc hn (h.tree.node _ o.1).1, o.2]
  · intro j hj e
    rw [A.node j hj, nodeOf_leaf hc hn (h.tree.node j hj).1] at e
    exact h.tree.inj hj o.1 (by rw [e, o.2])

/-- `updateC` without rebuilding counts as specified. -/
theorem count_ok {w : Nat → Nat} (hn1 : 2 ≤ n) (hn : n ≤ 314) {c : Nat} {s s' : Dyn} {t : Tree} (h : DynOk n w s) (hc : c < n)
    (hlt : s.freq.get 0 < 32768) (A : Agree n t s) (e : updateC c s = .ok s') : Agree n (t.count n c) s' := by
  have hs := h.inv.sz
  have o := sNode_at h.inv hn hc
  have hp1 : s.sNode.get c ≠ 0 := fun g => by rw [g, h.inv.tree.root hn1] at o; omega
  unfold updateC at e
  rw [rd_ok (by rw [hs.freq]; omega), ok_bind, if_neg (by omega), ok_bind, rd_ok (by rw [hs.freq]; omega), ok_bind,
    wr_ok (by rw [hs.freq]; omega), ok_bind, rd_ok (by rw [hs.sNode]; omega), ok_bind, Nat.mod_eq_of_lt (by omega)] at e
  unfold Tree.count
  rw [A.place h.inv hn hc]
  refine ucLoop_spec hn1 hn 1000 (s.sNode.get c) (2 * n) w _ s' t (h.ahead hn1 hn hc hlt) (by omega) o.1 (by omega)
    ⟨A.node, ?_, ?_⟩ e
  · intro i h1 hi
    rw [A.freq i hi]
    simp only []
    rw [Arr.get_upd_ne _ _ _ _ (by omega)]
  · rw [A.freq 0 (by omega)]
    simp only []
    rw [Arr.get_upd_same]

/-- `updateC` is a step of the specification. -/
theorem step_ok {w : Nat → Nat} (hn1 : 2 ≤ n) (hn : n ≤ 314) {c : Nat} {s : Dyn} {t t' : Tree} (h : DynOk n w s) (hc : c < n)
    (A : Agree n t s) (S : Step n t c t') :
    ∃ s', updateC c s = .ok s' ∧ Agree n t' s' ∧ DynOk n (bump w (s.freq.get 0 = 0x8000) c) s' ∧ s'.n1 = s.n1 := by
  obtain ⟨s', e, D, m1⟩ := updateC_ok hn1 hn h hc
  refine ⟨s', e, ?_, D, m1⟩
  have hs := h.inv.sz
  unfold Step at S
  rw [A.freq 0 (by omega)] at S
  by_cases g : s.freq.get 0 = 32768
  · rw [if_pos g] at S
    obtain ⟨t1, C, rfl⟩ := S
    obtain ⟨s1, e1, h1, lt, n1, O⟩ := reconst_ok hn1 hn h
    have C1 := canon_of hn h1.inv O
    have C2 : Canon n (fun c d => s.sNode.get c < s.sNode.get d) (fun c => (w c + 1) / 2) t1 := by
      refine C.congr ?_ ?_
      · intro a ha
        have o := sNode_at h.inv hn ha
        simp only [Tree.weight]
        rw [A.place h.inv hn ha, A.freq _ o.1, h.inv.leafw a ha]
      · intro a b ha hb hab
        simp only [Tree.before]
        rw [A.place h.inv hn ha, A.place h.inv hn hb]
        exact hab
    have A1 : Agree n t1 s1 := by
      have U := canon_unique (fun c d hc hd hcd => ?_) C2 C1 (2 * n - 1)
      · exact ⟨fun i hi => (U i (by omega) hi).1, fun i hi => (U i (by omega) hi).2⟩
      · by_contra g'
        have e : s.sNode.get c = s.sNode.get d := by omega
        have o1 := sNode_at h.inv hn hc
        have o2 := sNode_at h.inv hn hd
        rw [e, o2.2] at o1
        omega
    refine count_ok hn1 hn h1 hc lt A1 ?_
    unfold updateC at e ⊢
    rw [rd_ok (by rw [h1.inv.sz.freq]; omega), ok_bind, if_neg (by omega), ok_bind]
    rw [rd_ok (by rw [hs.freq]; omega), ok_bind, if_pos g, h.size, e1, ok_bind] at e
    exact e
  · rw [if_neg g] at S
    subst S
    exact count_ok hn1 hn h hc (by have := h.cap; omega) A e

/-- There is a next tree. -/
theorem step_exists {w : Nat → Nat} (hn1 : 2 ≤ n) (hn : n ≤ 314) {s : Dyn} {t : Tree} (h : DynOk n w s)
    (A : Agree n t s) (c : Nat) : ∃ t', Step n t c t' := by
  unfold Step
  rw [A.freq 0 (by omega)]
  by_cases g : s.freq.get 0 = 32768
  · simp only [if_pos g]
    obtain ⟨s1, e1, h1, lt, n1, O⟩ := reconst_ok hn1 hn h
    refine ⟨_, treeOf s1, (canon_of hn h1.inv O).congr ?_ ?_, rfl⟩
    · intro a ha
      have o := sNode_at h.inv hn ha
      simp only [Tree.weight]
      rw [A.place h.inv hn ha, A.freq _ o.1, h.inv.leafw a ha]
    · intro a b ha hb hab
      simp only [Tree.before] at hab
      rw [A.place h.inv hn ha, A.place h.inv hn hb] at hab
      exact hab
  · simp only [if_neg g]
    exact ⟨_, rfl⟩

/-- `startCDyn` makes the tree of the specification. -/
theorem start_ok {maxmatch : Nat} (hn1 : 2 ≤ n) (hn : n ≤ 314) {s : Dyn} (hs : DynSz s) {t : Tree} (S : Start n t) :
    ∃ s', startCDyn n maxmatch s = .ok s' ∧ DynOk n (fun _ => 1) s' ∧
      (s'.n1 = if 256 + maxmatch - 3 + 1 ≤ n then n - 1 else 512) ∧ Agree n t s' := by
  obtain ⟨s', e, D, m1, O, _⟩ := startCDyn_ok (maxmatch := maxmatch) hn1 hn hs
  refine ⟨s', e, D, m1, ?_⟩
  have C := (canon_of hn D.inv O).congr (lt' := fun c d => d < c) (w' := fun _ => 1) (fun _ _ => rfl) (fun c d hc hd h => by omega)
  have U := canon_unique (fun c d hc hd hcd => by omega) S C (2 * n - 1)
  exact ⟨fun i hi => (U i (by omega) hi).1, fun i hi => (U i (by omega) hi).2⟩

theorem start_exists (hn1 : 2 ≤ n) (hn : n ≤ 314) : ∃ t, Start n t := by
  obtain ⟨s', e, D, m1, O, _⟩ := startCDyn_ok (maxmatch := 60) (s := Dyn.fresh) hn1 hn (by constructor <;> rfl)
  exact ⟨_, (canon_of hn D.inv O).congr (fun _ _ => rfl) (fun c d hc hd h => by omega)⟩

end Lha
