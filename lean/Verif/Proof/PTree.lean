import Verif.Proof.PView
/-!
# Counting in the distance tree of lh2
-/

namespace Lha

open Spec

variable {m : Nat} {K : Nat → Prop}

/-- From a node of the distance tree upwards. -/
theorem upLoop_view (hm1 : 2 ≤ m) (hm : m ≤ 128) (f : Nat) : ∀ (g p : Nat) (s v : Dyn) (w : Nat → Nat), View m s v → DynInv m p w v → 1 ≤ p →
    p < 2 * m - 1 → p ≤ f → p < g → (∀ b, K b → Away (2 * m - 1) b v.block.get v.stock.get v.avail) →
    ∃ s' v', ucLoop f p v = .ok v' ∧ upLoop g (p + 628) s = .ok s' ∧ View m s' v' ∧ OutsideP K s s' ∧ Same s s' := by
  induction f with
  | zero => intro g p s v w _ _ h1 _ h2; omega
  | succ f ih =>
    intro g p s v w V I p1 p2 hf hg hK
    obtain ⟨g, rfl⟩ : ∃ g', g = g' + 1 := ⟨g - 1, by omega⟩
    obtain ⟨x, s1, v1, e1, e2, V1, O1, S1⟩ := swapInc_view (K := K) V hm1 hm I p1 p2 (fun j hj hk => (hK _ hk).1 j hj rfl)
      (fun a a1 a2 hk => (hK _ hk).2 a a1 a2 rfl)
    obtain ⟨x', v1', e3, hx, _, I1, K1, _⟩ := swapInc_ok hm1 (by omega) I p1 p2
    rw [e1] at e3
    cases e3
    rw [ucLoop, e1, ok_bind, upLoop, if_neg (by omega), e2, ok_bind]
    simp only []
    by_cases h0 : x = 0
    · subst h0
      obtain ⟨g, rfl⟩ : ∃ g', g = g' + 1 := ⟨g - 1, by omega⟩
      rw [if_pos rfl, upLoop, if_pos (by omega)]
      exact ⟨s1, v1, rfl, rfl, V1, O1, S1⟩
    · rw [if_neg h0]
      obtain ⟨s2, v2, e4, e5, V2, O2, S2⟩ := ih g x s1 v1 _ V1 I1 (by omega) (by omega) (by omega) (by omega)
        (fun b hb => (K1.frame.blocks.away b (hK b hb)).2)
      exact ⟨s2, v2, e4, e5, V2, O1.trans O2, S1.trans S2⟩

theorem View.setRoot {s v : Dyn} (V : View m s v) {f : Nat} : View m s { v with freq := v.freq.upd 0 f } := by
  have hv := V.vz
  refine ⟨V.sz, ⟨hv.child, hv.parent, hv.block, hv.edge, hv.stock, hv.sNode, by simp [hv.freq]⟩, V.child, V.parent, V.sNode, ?_, V.root, V.block, V.edge, V.stock, V.avail⟩
  intro i i1 i2
  simp only []
  rw [Arr.get_upd_ne _ _ _ _ (by omega), V.freq i i1 i2]

/-- `updateP` counts one occurrence of `c` in the view. -/
theorem updateP_view (hm1 : 2 ≤ m) (hm : m ≤ 128) {s v : Dyn} {w : Nat → Nat} {t : Tree} {c : Nat} (V : View m s v) (h : DynOk m w v) (A : Agree m t v)
    (hc : c < m) (hlt : v.freq.get 0 < 32768) (ht : s.totalP < 32768) (hK : ∀ b, K b → Away (2 * m - 1) b v.block.get v.stock.get v.avail) :
    ∃ s' v', updateP (c + 314) s = .ok s' ∧ View m s' v' ∧ DynOk m (fun a => w a + if a = c then 1 else 0) v' ∧ Agree m (t.count m c) v' ∧
      OutsideP K s s' ∧ s'.mostP = s.mostP ∧ s'.totalP = s.totalP + 1 ∧ DynFrame m v v' ∧ v'.freq.get 0 = v.freq.get 0 + 1 := by
  obtain ⟨v', e, D, _, F⟩ := updateC_plain hm1 (by omega) h hc hlt
  have A' := count_ok hm1 (by omega) h hc hlt A e
  have hs := h.inv.sz
  have o := sNode_at h.inv (by omega) hc
  have hp1 : v.sNode.get c ≠ 0 := fun g => by rw [g, h.inv.tree.root hm1] at o; omega
  have I := h.ahead hm1 (by omega) hc hlt
  obtain ⟨s2, v2, e1, e2, V2, O2, S2⟩ := upLoop_view (K := K) hm1 hm 1000 1000 (v.sNode.get c) s _ w (V.setRoot (f := v.freq.get 0 + 1)) I (by omega) o.1 (by omega) (by omega) hK
  obtain ⟨v3, e3, _, b3⟩ := ucLoop_ok hm1 (by omega) (f := 1000) I (by omega) o.1 (by omega)
  rw [e1] at e3
  cases e3
  unfold updateC at e
  rw [rd_ok (by rw [hs.freq]; omega), ok_bind, if_neg (by omega), ok_bind, rd_ok (by rw [hs.freq]; omega), ok_bind,
    wr_ok (by rw [hs.freq]; omega), ok_bind, rd_ok (by rw [hs.sNode]; omega), ok_bind, Nat.mod_eq_of_lt (by omega), e1] at e
  cases e
  have k3 := b3.root
  simp only [Arr.get_upd, if_true] at k3
  unfold updateP
  rw [if_neg (by omega), ok_bind, rd_ok (by rw [V.sz.sNode]; omega), ok_bind, V.sNode c hc, e2, ok_bind, S2.2, Nat.mod_eq_of_lt (by omega)]
  have z := V2.sz
  exact ⟨_, _, rfl, ⟨⟨z.child, z.parent, z.block, z.edge, z.stock, z.sNode, z.freq⟩, V2.vz, V2.child, V2.parent, V2.sNode, V2.freq, V2.root, V2.block, V2.edge, V2.stock, V2.avail⟩,
    D, A', ⟨O2.child, O2.parent, O2.freq, O2.block, O2.sNode, O2.edge, O2.nMax, O2.n1, O2.nn, O2.next⟩, S2.1, rfl, F, k3⟩

end Lha
