import Verif.Proof.DynInv
/-!
# A new leaf at the end of an adaptive tree
-/

namespace Lha

theorem TreeF.last {m : Nat} {child parent sNode : Nat → Nat} (T : TreeF m child parent sNode) (hm1 : 1 ≤ m) (hm : m ≤ 128) :
    ∃ c, c < m ∧ child (2 * m - 2) = 65535 - c := by
  obtain ⟨v, o⟩ := T.node (2 * m - 2) (by omega)
  rcases v with h | ⟨k, k1, k2, k3⟩
  · exact h
  · unfold ownF at o
    rw [if_neg (by omega), k3] at o
    have := (T.up k k1 k2).1
    omega

/-- The last node, a leaf, becomes the pair of itself and a new leaf. -/
theorem TreeF.sprout {m : Nat} {child parent sNode child' parent' sNode' : Nat → Nat} (T : TreeF m child parent sNode) (hm1 : 1 ≤ m) (hm : m ≤ 127)
    (hc : ∀ i, child' i = if i = 2 * m - 2 then 2 * m else if i = 2 * m then 65535 - m else if i = 2 * m - 1 then child (2 * m - 2) else child i)
    (hp : ∀ i, parent' i = if i = 2 * m - 1 then 2 * m - 2 else if i = 2 * m then 2 * m - 2 else parent i)
    (hs : ∀ c, sNode' c = if c = m then 2 * m else if c = 65535 - child (2 * m - 2) then 2 * m - 1 else sNode c) :
    TreeF (m + 1) child' parent' sNode' := by
  obtain ⟨cz, z1, z2⟩ := T.last hm1 (by omega)
  have oz := (T.node (2 * m - 2) (by omega)).2
  have hown : ∀ v, ValidF m v → v ≠ child (2 * m - 2) → ownF parent' sNode' v = ownF parent sNode v := by
    intro v hv hne
    unfold ownF
    rcases hv with ⟨c, c1, rfl⟩ | ⟨k, k1, k2, rfl⟩
    · rw [if_pos (by omega), if_pos (by omega), hs, if_neg (by omega), if_neg (by omega)]
    · rw [if_neg (by omega), if_neg (by omega), hp, if_neg (by omega), if_neg (by omega)]
  have o1 : ownF parent' sNode' (2 * m) = 2 * m - 2 := by
    unfold ownF; rw [if_neg (by omega), hp, if_neg (by omega), if_pos rfl]
  have o2 : ownF parent' sNode' (65535 - m) = 2 * m := by
    unfold ownF; rw [if_pos (by omega), hs, if_pos (by omega)]
  have o3 : ownF parent' sNode' (child (2 * m - 2)) = 2 * m - 1 := by
    unfold ownF; rw [z2, if_pos (by omega), hs, if_neg (by omega), if_pos (by omega)]
  have up : ∀ v, ValidF m v → ValidF (m + 1) v := by
    rintro v (⟨c, c1, rfl⟩ | ⟨k, k1, k2, rfl⟩)
    · exact Or.inl ⟨c, by omega, rfl⟩
    · exact Or.inr ⟨k, k1, by omega, rfl⟩
  constructor
  · intro i hi
    rw [hc]
    by_cases g1 : i = 2 * m - 2
    · rw [if_pos g1, o1]; exact ⟨Or.inr ⟨m, hm1, by omega, rfl⟩, g1.symm⟩
    · rw [if_neg g1]
      by_cases g2 : i = 2 * m
      · rw [if_pos g2, o2]; exact ⟨Or.inl ⟨m, by omega, rfl⟩, g2.symm⟩
      · rw [if_neg g2]
        by_cases g3 : i = 2 * m - 1
        · rw [if_pos g3, o3]; exact ⟨up _ (T.node _ (by omega)).1, g3.symm⟩
        · rw [if_neg g3]
          obtain ⟨a, b⟩ := T.node i (by omega)
          refine ⟨up _ a, ?_⟩
          rw [hown _ a (fun e => g1 (T.inj (by omega) (by omega) e)), b]
  · intro v hv
    have h : v = 2 * m ∨ v = 65535 - m ∨ ValidF m v := by
      rcases hv with ⟨c, c1, rfl⟩ | ⟨k, k1, k2, rfl⟩
      · by_cases g : c = m
        · exact Or.inr (Or.inl (by rw [g]))
        · exact Or.inr (Or.inr (Or.inl ⟨c, by omega, rfl⟩))
      · by_cases g : k = m
        · exact Or.inl (by rw [g])
        · exact Or.inr (Or.inr (Or.inr ⟨k, k1, by omega, rfl⟩))
    rcases h with rfl | rfl | h
    · rw [o1, hc, if_pos rfl]; exact ⟨by omega, rfl⟩
    · rw [o2, hc, if_neg (by omega), if_pos rfl]; exact ⟨by omega, rfl⟩
    · by_cases g : v = child (2 * m - 2)
      · rw [g, o3, hc, if_neg (by omega), if_neg (by omega), if_pos rfl]; exact ⟨by omega, rfl⟩
      · obtain ⟨a, b⟩ := T.owner v h
        rw [hown v h g, hc, if_neg (fun e => g (by rw [← b, e])), if_neg (by omega), if_neg (by omega)]
        exact ⟨by omega, b⟩
  · intro k k1 k2
    by_cases g : k = m
    · subst g
      rw [hp (2 * k - 1), if_pos rfl, hp, if_neg (by omega), if_pos rfl]
      omega
    · rw [hp, if_neg (by omega), if_neg (by omega), hp, if_neg (by omega), if_neg (by omega)]
      exact T.up k k1 (by omega)

theorem WeightF.sprout {m : Nat} {child parent sNode freq child' freq' : Nat → Nat} (T : TreeF m child parent sNode) (W : WeightF m 0 child freq)
    (hm1 : 2 ≤ m) (hm : m ≤ 127)
    (hc : ∀ i, child' i = if i = 2 * m - 2 then 2 * m else if i = 2 * m then 65535 - m else if i = 2 * m - 1 then child (2 * m - 2) else child i)
    (hf : ∀ i, freq' i = if i = 0 then freq 0 + 1 else if i = 2 * m then 1 else if i = 2 * m - 1 then freq (2 * m - 2) else freq i) :
    WeightF (m + 1) (2 * m - 2) child' freq' := by
  obtain ⟨cz, z1, z2⟩ := T.last (by omega) (by omega)
  have hpos := W.pos (2 * m - 2) (by omega)
  constructor
  · intro i j hij hj
    have l1 : ∀ i, i < 2 * m - 1 → freq (2 * m - 2) ≤ freq i := fun i hi => W.mono i (2 * m - 2) (by omega) (by omega)
    have f0 : ∀ i, i < 2 * m - 1 → freq i ≤ freq' i := by
      intro i hi
      rw [hf]
      by_cases g : i = 0
      · rw [if_pos g, g]; omega
      · rw [if_neg g, if_neg (by omega), if_neg (by omega)]; exact Nat.le_refl _
    have f1 : freq' (2 * m - 1) = freq (2 * m - 2) := by rw [hf, if_neg (by omega), if_neg (by omega), if_pos rfl]
    have f2 : freq' (2 * m) = 1 := by rw [hf, if_neg (by omega), if_pos rfl]
    by_cases g1 : j = 2 * m
    · rw [g1, f2]
      by_cases g2 : i = 2 * m
      · rw [g2, f2]; exact Nat.le_refl _
      · by_cases g3 : i = 2 * m - 1
        · rw [g3, f1]; omega
        · have := l1 i (by omega)
          have := f0 i (by omega)
          omega
    · by_cases g2 : j = 2 * m - 1
      · rw [g2, f1]
        by_cases g3 : i = 2 * m - 1
        · rw [g3, f1]; exact Nat.le_refl _
        · have := l1 i (by omega)
          have := f0 i (by omega)
          omega
      · have := W.mono i j hij (by omega)
        have := f0 i (by omega)
        by_cases g : j = 0
        · have : i = 0 := by omega
          rw [this, g]; exact Nat.le_refl _
        · rw [hf j, if_neg g, if_neg (by omega), if_neg (by omega)]
          omega
  · intro i hi
    rw [hf]
    split
    · omega
    · split
      · omega
      · split
        · omega
        · exact W.pos i (by omega)
  · intro i k hi k1 k2 e
    rw [hc] at e
    by_cases g1 : i = 2 * m - 2
    · rw [if_pos g1] at e
      have : k = m := by omega
      subst this
      rw [if_pos g1, if_neg (by omega), hf i, hf (2 * k), hf (2 * k - 1), if_neg (by omega), if_neg (by omega), if_neg (by omega), if_neg (by omega), if_pos rfl, if_neg (by omega),
        if_neg (by omega), if_pos rfl, g1]
      omega
    · rw [if_neg g1] at e
      rw [if_neg g1]
      by_cases g2 : i = 2 * m
      · rw [if_pos g2] at e; omega
      · rw [if_neg g2] at e
        by_cases g3 : i = 2 * m - 1
        · rw [if_pos g3] at e; omega
        · rw [if_neg g3] at e
          have km : k < m := by
            rcases (T.node i (by omega)).1 with ⟨c, _, c2⟩ | ⟨k', _, _, c3⟩ <;> omega
          have := W.sum i k (by omega) k1 km e
          rw [hf (2 * k), hf (2 * k - 1), if_neg (by omega), if_neg (by omega), if_neg (by omega), if_neg (by omega), if_neg (by omega), if_neg (by omega)]
          by_cases g : i = 0
          · simp only [if_pos g] at this ⊢
            rw [hf, if_pos g]
            rw [g] at this
            omega
          · simp only [if_neg g] at this ⊢
            rw [hf, if_neg g, if_neg (by omega), if_neg (by omega)]
            omega

theorem leads_sprout {N : Nat} {freq freq' : Nat → Nat} (hN : 1 ≤ N)
    (hf : ∀ i, freq' i = if i = N + 1 then 1 else if i = N then freq (N - 1) else freq i) :
    leads freq' (N + 2) = leads freq N + if freq (N - 1) = 1 then 0 else 1 := by
  have e : leads freq' N = leads freq N := leads_congr _ _ _ fun i hi => by rw [hf, if_neg (by omega), if_neg (by omega)]
  have f1 : freq' (N + 1) = 1 := by rw [hf, if_pos rfl]
  have f2 : freq' N = freq (N - 1) := by rw [hf, if_neg (by omega), if_pos rfl]
  have f3 : freq' (N - 1) = freq (N - 1) := by rw [hf, if_neg (by omega), if_neg (by omega)]
  rw [leads, leads, e, Nat.add_sub_cancel, f1, f2, f3, if_neg (by omega)]
  by_cases g : freq (N - 1) = 1
  · rw [if_neg (by omega), if_pos g]
  · rw [if_pos (by omega), if_neg g]

/-- The blocks after a new leaf of weight one. -/
theorem BlockF.sprout {N : Nat} {block edge stock freq block' edge' stock' freq' : Nat → Nat} {avail avail' : Nat}
    (B : BlockF N block edge stock avail freq) (hN : 2 ≤ N) (hmono : ∀ i, i < N → freq (N - 1) ≤ freq i) (hpos : 1 ≤ freq (N - 1))
    (hcap : avail + N + 2 ≤ 628 + leads freq N) (hav : avail < 628)
    (hf : ∀ i, freq' i = if i = N + 1 then 1 else if i = N then freq (N - 1) else freq i)
    (hb : ∀ i, block' i = if i = N + 1 then (if freq (N - 1) = 1 then block (N - 1) else stock avail) else if i = N then block (N - 1) else block i)
    (he : ∀ i, edge' i = if i = stock avail then N + 1 else edge i) (hst : ∀ a, a < 628 → stock' a = stock a)
    (ha : avail' = if freq (N - 1) = 1 then avail else avail + 1) (hpad : block (N + 2) = 0) : BlockF (N + 2) block' edge' stock' avail' freq' := by
  have f1 : freq' (N + 1) = 1 := by rw [hf, if_pos rfl]
  have f2 : freq' N = freq (N - 1) := by rw [hf, if_neg (by omega), if_pos rfl]
  have f3 : ∀ i, i < N → freq' i = freq i := fun i hi => by rw [hf, if_neg (by omega), if_neg (by omega)]
  have b2 : block' N = block (N - 1) := by rw [hb, if_neg (by omega), if_pos rfl]
  have b3 : ∀ i, i < N → block' i = block i := fun i hi => by rw [hb, if_neg (by omega), if_neg (by omega)]
  obtain ⟨s1, s2, s3⟩ := B.free avail (Nat.le_refl _) hav
  have e3 : ∀ i, i < N → edge' (block i) = edge (block i) := fun i hi => by rw [he, if_neg (s3 i hi)]
  -- the last place is like another one, or alone
  have last : (∃ j, j < N ∧ block' (N + 1) = block j ∧ freq' (N + 1) = freq j) ∨
      (freq (N - 1) ≠ 1 ∧ block' (N + 1) = stock avail ∧ edge' (stock avail) = N + 1) := by
    by_cases g : freq (N - 1) = 1
    · exact Or.inl ⟨N - 1, by omega, by rw [hb, if_pos rfl, if_pos g], by rw [f1, g]⟩
    · exact Or.inr ⟨g, by rw [hb, if_pos rfl, if_neg g], by rw [he, if_pos rfl]⟩
  have two : ∀ i, i < N + 2 → (∃ j, j < N ∧ j ≤ i ∧ block' i = block j ∧ freq' i = freq j) ∨
      (i = N + 1 ∧ freq (N - 1) ≠ 1 ∧ block' i = stock avail ∧ edge' (stock avail) = N + 1) := by
    intro i hi
    by_cases g1 : i = N + 1
    · rcases last with ⟨j, j1, j2, j3⟩ | h
      · exact Or.inl ⟨j, j1, by omega, by rw [g1, j2], by rw [g1, j3]⟩
      · exact Or.inr ⟨g1, by rw [g1]; exact h⟩
    · by_cases g2 : i = N
      · exact Or.inl ⟨N - 1, by omega, by omega, by rw [g2, b2], by rw [g2, f2]⟩
      · exact Or.inl ⟨i, by omega, Nat.le_refl _, b3 i (by omega), f3 i (by omega)⟩
  constructor
  · intro i hi
    rcases two i hi with ⟨j, j1, _, j2, _⟩ | ⟨_, _, h, _⟩
    · rw [j2]; exact B.blk j j1
    · rw [h]; exact ⟨s1, s2⟩
  · intro i j hi hj e
    rcases two i hi with ⟨i', i1, i0, i2, i3⟩ | ⟨i1, i2, i3, _⟩ <;> rcases two j hj with ⟨j', j1, j0, j2, j3⟩ | ⟨j1, j2, j3, _⟩
    · rw [i2, j2]; exact B.same _ _ i1 j1 (by omega)
    · have := hmono i' i1
      rw [j1, f1] at e
      omega
    · have := hmono j' j1
      rw [i1, f1] at e
      omega
    · rw [i3, j3]
  · intro i hi
    rcases two i hi with ⟨j, j1, j0, j2, _⟩ | ⟨h0, _, h, h'⟩
    · rw [j2, e3 j j1]
      have := B.edge_le j j1
      omega
    · rw [h, h']; omega
  · intro i hi
    rcases two i hi with ⟨j, j1, j0, j2, j3⟩ | ⟨h0, _, h, h'⟩
    · have := B.edge_le j j1
      rw [j2, e3 j j1, f3 _ (by omega), B.edge_eq j j1, j3]
    · rw [h, h', h0]
  · intro i j hi hj
    rcases two i hi with ⟨i', j1, j0, j2, j3⟩ | ⟨h0, h1, h, h'⟩
    · rw [j2, e3 i' j1] at hj
      have := B.edge_le i' j1
      rw [j3, f3 j (by omega)]
      exact B.edge_lt i' j j1 hj
    · rw [h, h'] at hj
      rw [h0, f1]
      by_cases g : j = N
      · rw [g, f2]; omega
      · have := hmono j (by omega)
        rw [f3 j (by omega)]
        omega
  · intro a a1 a2
    rw [hst a a2]
    have a3 : avail ≤ a := by rw [ha] at a1; split at a1 <;> omega
    obtain ⟨x, y, z⟩ := B.free a a3 a2
    refine ⟨x, y, fun i hi => ?_⟩
    rcases two i hi with ⟨j, j1, _, j2, _⟩ | ⟨_, h1, h, _⟩
    · rw [j2]; exact z j j1
    · rw [h]
      intro e
      have := B.inj avail a (Nat.le_refl _) hav a3 a2 e
      rw [ha, if_neg h1] at a1
      omega
  · intro a a' h1 h2 h3 h4
    rw [hst a h2, hst a' h4]
    have : avail ≤ avail' := by rw [ha]; split <;> omega
    exact B.inj a a' (by omega) h2 (by omega) h4
  · rw [leads_sprout (by omega) hf, ha]
    have := B.cnt
    split <;> omega
  · rw [hb, if_neg (by omega), if_neg (by omega), hpad]

end Lha
