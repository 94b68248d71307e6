import Verif.Proof.Reconst2
/-!
# The first adaptive tree, and counting symbols
-/

namespace Lha

theorem leads_shift (f : Nat → Nat) (M : Nat) :
    leads f (M + 1) = leads (fun y => f (y + 1)) M + (if 1 ≤ M ∧ f 1 = f 0 then 0 else 1) := by
  induction M with
  | zero => simp [leads]
  | succ M ih =>
    rw [leads, ih]
    rw [leads.eq_2 (fun y => f (y + 1)) M]
    by_cases h0 : M = 0
    · subst h0
      by_cases g : f 1 = f 0 <;> simp [leads, g]
    · simp only [show M - 1 + 1 = M from by omega, Nat.add_sub_cancel]
      by_cases g : f 1 = f 0 <;> by_cases g' : f (M + 1) = f M <;> simp [g, g', h0] <;> omega

/-- The tree finished from node `J` on. -/
structure SI (n J : Nat) (child parent block edge stock sNode freq : Nat → Nat) (avail : Nat) : Prop where
  cleaf : ∀ c, c < n → child (2 * n - 2 - c) = 65535 - c ∧ freq (2 * n - 2 - c) = 1 ∧ sNode c = 2 * n - 2 - c
  cinner : ∀ x, J ≤ x → x < n - 1 → child x = 2 * (x + 1) ∧ freq x = freq (2 * (x + 1)) + freq (2 * (x + 1) - 1)
  par : ∀ k, J < k → k < n → parent (2 * k) = k - 1 ∧ parent (2 * k - 1) = k - 1
  mono : ∀ x y, J ≤ x → x ≤ y → y < 2 * n - 1 → freq y ≤ freq x
  sum : ∑ x ∈ Finset.Ico J (2 * J + 1), freq x = n
  blk : ∀ x, J ≤ x → x < 2 * n - 1 → 1 ≤ block x ∧ block x < avail
  same : ∀ x y, J ≤ x → x < 2 * n - 1 → J ≤ y → y < 2 * n - 1 → freq x = freq y → block x = block y
  edge_in : ∀ x, J ≤ x → x < 2 * n - 1 → J ≤ edge (block x) ∧ edge (block x) ≤ x ∧ freq (edge (block x)) = freq x
  edge_lt : ∀ x y, J ≤ x → x < 2 * n - 1 → J ≤ y → y < edge (block x) → freq x < freq y
  stk : ∀ a, a < 628 → stock a = a
  cnt : avail = 1 + leads (fun y => freq (y + J)) (2 * n - 1 - J)
  pad : block (2 * n - 1) = 0

variable {n j : Nat} {child parent block edge stock sNode freq child' parent' block' edge' freq' : Nat → Nat} {avail avail' : Nat}

theorem SI.step (hn1 : 2 ≤ n) (hn : n ≤ 314) (hj : j + 1 < n) (h : SI n (j + 1) child parent block edge stock sNode freq avail)
    (hc : ∀ x, child' x = if x = j then 2 * (j + 1) else child x)
    (hp : ∀ x, parent' x = if x = 2 * (j + 1) then j else if x = 2 * (j + 1) - 1 then j else parent x)
    (hf : ∀ x, freq' x = if x = j then freq (2 * (j + 1)) + freq (2 * (j + 1) - 1) else freq x)
    (hb : freq' j = freq' (j + 1) → avail' = avail ∧ (∀ x, block' x = if x = j then block (j + 1) else block x) ∧
      (∀ x, edge' x = if x = block (j + 1) then j else edge x))
    (hb' : freq' j ≠ freq' (j + 1) → avail' = avail + 1 ∧ (∀ x, block' x = if x = j then avail else block x) ∧
      (∀ x, edge' x = if x = avail then j else edge x)) :
    SI n j child' parent' block' edge' stock sNode freq' avail' := by
  have cn : ∀ x, x ≠ j → child' x = child x := fun x hx => by rw [hc, if_neg hx]
  have fn : ∀ x, x ≠ j → freq' x = freq x := fun x hx => by rw [hf, if_neg hx]
  have fj : freq' j = freq (2 * (j + 1)) + freq (2 * (j + 1) - 1) := by rw [hf, if_pos rfl]
  have pos : ∀ x, j + 1 ≤ x → x < 2 * n - 1 → 1 ≤ freq x := by
    intro x h1 h2
    have a := h.mono x (2 * n - 2) h1 (by omega) (by omega)
    have b := (h.cleaf 0 (by omega)).2.1
    rw [Nat.sub_zero] at b
    omega
  have ge : freq (j + 1) ≤ freq' j := by
    rw [fj]
    by_cases e : j + 1 = n - 1
    · have b := (h.cleaf (n - 1) (by omega)).2.1
      rw [show 2 * n - 2 - (n - 1) = j + 1 from by omega] at b
      have := pos (2 * (j + 1)) (by omega) (by omega)
      omega
    · have := (h.cinner (j + 1) (by omega) (by omega)).2
      rw [this]
      have a := h.mono (2 * (j + 1)) (2 * (j + 1 + 1)) (by omega) (by omega) (by omega)
      have b := h.mono (2 * (j + 1) - 1) (2 * (j + 1 + 1) - 1) (by omega) (by omega) (by omega)
      omega
  have mono' : ∀ x y, j ≤ x → x ≤ y → y < 2 * n - 1 → freq' y ≤ freq' x := by
    intro x y hx hxy hy
    by_cases e : x = j
    · by_cases e' : y = j
      · rw [e, e']
      · rw [e, fn y e']
        have := h.mono (j + 1) y (by omega) (by omega) hy
        omega
    · rw [fn x e, fn y (by omega)]
      exact h.mono x y (by omega) hxy hy
  have f1 : freq' (j + 1) = freq (j + 1) := fn _ (by omega)
  have lsh : leads (fun y => freq' (y + j)) (2 * n - 1 - j) =
      leads (fun y => freq (y + (j + 1))) (2 * n - 1 - (j + 1)) + (if freq' j = freq' (j + 1) then 0 else 1) := by
    rw [show 2 * n - 1 - j = 2 * n - 1 - (j + 1) + 1 from by omega, leads_shift]
    rw [leads_congr (fun y => freq' (y + 1 + j)) (fun y => freq (y + (j + 1)))
      (2 * n - 1 - (j + 1)) (fun i _ => by rw [fn _ (by omega)]; congr 1; omega)]
    congr 1
    simp only [Nat.zero_add, Nat.add_comm 1 j]
    have : 1 ≤ 2 * n - 1 - (j + 1) := by omega
    by_cases g : freq' j = freq' (j + 1)
    · rw [if_pos ⟨this, g.symm⟩, if_pos g]
    · rw [if_neg (fun q => g q.2.symm), if_neg g]
  have hblk1 := h.blk (j + 1) (by omega) (by omega)
  have hed1 := h.edge_in (j + 1) (by omega) (by omega)
  have hav : avail ≤ 628 := by
    rw [h.cnt]
    have := leads_le (fun y => freq (y + (j + 1))) (2 * n - 1 - (j + 1))
    omega
  have common : avail' = 1 + leads (fun y => freq' (y + j)) (2 * n - 1 - j) ∧
      (∀ x, j ≤ x → x < 2 * n - 1 → 1 ≤ block' x ∧ block' x < avail') ∧
      (∀ x y, j ≤ x → x < 2 * n - 1 → j ≤ y → y < 2 * n - 1 → freq' x = freq' y → block' x = block' y) ∧
      (∀ x, j ≤ x → x < 2 * n - 1 → j ≤ edge' (block' x) ∧ edge' (block' x) ≤ x ∧ freq' (edge' (block' x)) = freq' x) ∧
      (∀ x y, j ≤ x → x < 2 * n - 1 → j ≤ y → y < edge' (block' x) → freq' x < freq' y) ∧ block' (2 * n - 1) = 0 := by
    by_cases g : freq' j = freq' (j + 1)
    · obtain ⟨a1, a2, a3⟩ := hb g
      have bj : block' j = block (j + 1) := by rw [a2, if_pos rfl]
      have bn : ∀ x, x ≠ j → block' x = block x := fun x hx => by rw [a2, if_neg hx]
      have red : ∀ x, j ≤ x → x < 2 * n - 1 → ∃ y, j + 1 ≤ y ∧ y < 2 * n - 1 ∧ block' x = block y ∧ freq' x = freq y ∧ (x ≠ j → y = x) := by
        intro x h1 h2
        by_cases e : x = j
        · exact ⟨j + 1, by omega, by omega, by rw [e, bj], by rw [e, g, f1], by omega⟩
        · exact ⟨x, by omega, h2, bn x e, fn x e, fun _ => rfl⟩
      have sep : ∀ x, j + 1 ≤ x → x < 2 * n - 1 → block x = block (j + 1) → freq x = freq (j + 1) := by
        intro x h1 h2 e
        rw [← (h.edge_in x h1 h2).2.2, e, hed1.2.2]
      refine ⟨?_, ?_, ?_, ?_, ?_, by rw [bn _ (by omega)]; exact h.pad⟩
      · rw [lsh, if_pos g, a1]; exact h.cnt
      · intro x h1 h2
        obtain ⟨y, y1, y2, y3, _⟩ := red x h1 h2
        rw [y3, a1]; exact h.blk y y1 y2
      · intro x z h1 h2 h3 h4 e
        obtain ⟨y, y1, y2, y3, y4, _⟩ := red x h1 h2
        obtain ⟨y', z1, z2, z3, z4, _⟩ := red z h3 h4
        rw [y3, z3]; exact h.same _ _ y1 y2 z1 z2 (by omega)
      · intro x h1 h2
        obtain ⟨y, y1, y2, y3, y4, y5⟩ := red x h1 h2
        rw [y3, y4, a3]
        by_cases q : block y = block (j + 1)
        · rw [if_pos q]
          exact ⟨by omega, h1, by rw [g, f1, sep y y1 y2 q]⟩
        · rw [if_neg q]
          have e := h.edge_in y y1 y2
          have : x ≠ j := fun c => q (by rw [← y3, c, bj])
          have := y5 this
          exact ⟨by omega, by omega, by rw [fn _ (by omega), e.2.2]⟩
      · intro x z h1 h2 h3 h4
        obtain ⟨y, y1, y2, y3, y4, y5⟩ := red x h1 h2
        rw [y3, a3] at h4
        by_cases q : block y = block (j + 1)
        · rw [if_pos q] at h4; omega
        · rw [if_neg q] at h4
          rw [y4]
          have lt : ∀ u, j + 1 ≤ u → u < edge (block y) → freq y < freq u := fun u u1 u2 => h.edge_lt y u y1 y2 u1 u2
          by_cases e : z = j
          · rw [e, g, f1]
            apply lt (j + 1) (by omega)
            have e1 := h.edge_in y y1 y2
            by_contra c
            have c' : edge (block y) = j + 1 := by omega
            rw [c'] at e1
            exact q (h.same y (j + 1) y1 y2 (by omega) (by omega) e1.2.2.symm)
          · rw [fn z e]; exact lt z (by omega) h4
    · obtain ⟨a1, a2, a3⟩ := hb' g
      have bj : block' j = avail := by rw [a2, if_pos rfl]
      have bn : ∀ x, x ≠ j → block' x = block x := fun x hx => by rw [a2, if_neg hx]
      have ej : edge' avail = j := by rw [a3, if_pos rfl]
      have en : ∀ x, j + 1 ≤ x → x < 2 * n - 1 → edge' (block x) = edge (block x) := fun x h1 h2 => by
        rw [a3, if_neg]; have := (h.blk x h1 h2).2; omega
      have high : ∀ x, j + 1 ≤ x → x < 2 * n - 1 → freq' x < freq' j := by
        intro x h1 h2
        have := mono' (j + 1) x (by omega) h1 h2
        omega
      refine ⟨?_, ?_, ?_, ?_, ?_, by rw [bn _ (by omega)]; exact h.pad⟩
      · rw [lsh, if_neg g, a1, h.cnt]; omega
      · intro x h1 h2
        by_cases e : x = j
        · rw [e, bj, a1]; omega
        · rw [bn x e, a1]; have := h.blk x (by omega) h2; omega
      · intro x z h1 h2 h3 h4 e
        by_cases ex : x = j
        · by_cases ez : z = j
          · rw [ex, ez]
          · have := high z (by omega) h4; rw [ex] at e; omega
        · by_cases ez : z = j
          · have := high x (by omega) h2; rw [ez] at e; omega
          · rw [bn x ex, bn z ez]
            rw [fn x ex, fn z ez] at e
            exact h.same x z (by omega) h2 (by omega) h4 e
      · intro x h1 h2
        by_cases e : x = j
        · rw [e, bj, ej]; exact ⟨by omega, by omega, rfl⟩
        · rw [bn x e, en x (by omega) h2]
          have := h.edge_in x (by omega) h2
          exact ⟨by omega, by omega, by rw [fn _ (by omega), fn x e, this.2.2]⟩
      · intro x z h1 h2 h3 h4
        by_cases e : x = j
        · rw [e, bj, ej] at h4; omega
        · rw [bn x e, en x (by omega) h2] at h4
          by_cases ez : z = j
          · rw [ez]; exact high x (by omega) h2
          · rw [fn x e, fn z ez]; exact h.edge_lt x z (by omega) h2 (by omega) h4
  obtain ⟨k1, k2, k3, k4, k5, k6⟩ := common
  refine ⟨?_, ?_, ?_, mono', ?_, k2, k3, k4, k5, h.stk, k1, k6⟩
  · intro c hc'
    rw [cn _ (by omega), fn _ (by omega)]
    exact h.cleaf c hc'
  · intro x h1 h2
    by_cases e : x = j
    · rw [e, hc, if_pos rfl, fj, fn _ (by omega), fn _ (by omega)]
      exact ⟨rfl, rfl⟩
    · rw [cn x e, fn x e, fn _ (by omega), fn _ (by omega)]
      exact h.cinner x (by omega) h2
  · intro k h1 h2
    by_cases e : k = j + 1
    · rw [hp, hp, e, if_pos rfl, if_neg (by omega), if_pos rfl]
      exact ⟨by omega, by omega⟩
    · rw [hp, hp, if_neg (by omega), if_neg (by omega), if_neg (by omega), if_neg (by omega)]
      exact h.par k (by omega) h2
  · have s := h.sum
    have s4 : ∑ x ∈ Finset.Ico (j + 1) (2 * (j + 1) + 1), freq x = ∑ x ∈ Finset.Ico (j + 1) (2 * j + 1), freq x +
        freq (2 * (j + 1) - 1) + freq (2 * (j + 1)) := by
      rw [Finset.sum_Ico_succ_top (by omega), show Finset.Ico (j + 1) (2 * (j + 1)) = Finset.Ico (j + 1) (2 * j + 1 + 1) from rfl,
        Finset.sum_Ico_succ_top (by omega), show 2 * (j + 1) - 1 = 2 * j + 1 from by omega]
    have s3 : ∑ x ∈ Finset.Ico (j + 1) (2 * j + 1), freq' x = ∑ x ∈ Finset.Ico (j + 1) (2 * j + 1), freq x := by
      apply Finset.sum_congr rfl
      intro x hx
      have := Finset.mem_Ico.1 hx
      exact fn x (by omega)
    rw [Finset.sum_eq_sum_Ico_succ_bot (by omega), s3, fj]
    omega

/-- A finished tree. -/
theorem SI.finish (hn1 : 2 ≤ n) (hn : n ≤ 314) (h : SI n 0 child parent block edge stock sNode freq avail) :
    TreeF n child parent sNode ∧ WeightF n 0 child freq ∧ BlockF (2 * n - 1) block edge stock avail freq ∧
      freq 0 = n ∧ ∀ c, c < n → freq (sNode c) = 1 := by
  have leafx : ∀ x, n - 1 ≤ x → x < 2 * n - 1 → child x = 65535 - (2 * n - 2 - x) ∧ sNode (2 * n - 2 - x) = x := by
    intro x h1 h2
    have := h.cleaf (2 * n - 2 - x) (by omega)
    rw [show 2 * n - 2 - (2 * n - 2 - x) = x from by omega] at this
    exact ⟨this.1, this.2.2⟩
  have pos : ∀ x, x < 2 * n - 1 → 1 ≤ freq x := by
    intro x h2
    have a := h.mono x (2 * n - 2) (by omega) (by omega) (by omega)
    have b := (h.cleaf 0 (by omega)).2.1
    rw [Nat.sub_zero] at b
    omega
  refine ⟨⟨?_, ?_, ?_⟩, ⟨?_, pos, ?_⟩, ⟨?_, ?_, ?_, ?_, ?_, ?_, ?_, ?_, h.pad⟩, ?_, ?_⟩
  · intro x hx
    by_cases e : x < n - 1
    · have c := (h.cinner x (by omega) e).1
      refine ⟨Or.inr ⟨x + 1, by omega, by omega, c⟩, ?_⟩
      unfold ownF
      rw [c, if_neg (by omega), (h.par (x + 1) (by omega) (by omega)).1]
      omega
    · obtain ⟨c, s⟩ := leafx x (by omega) hx
      refine ⟨Or.inl ⟨2 * n - 2 - x, by omega, c⟩, ?_⟩
      unfold ownF
      rw [c, if_pos (by omega), show 65535 - (65535 - (2 * n - 2 - x)) = 2 * n - 2 - x from by omega, s]
  · rintro v (⟨c, c1, rfl⟩ | ⟨k, k1, k2, rfl⟩)
    · unfold ownF
      rw [if_pos (by omega), show 65535 - (65535 - c) = c from by omega, (h.cleaf c c1).2.2]
      exact ⟨by omega, (h.cleaf c c1).1⟩
    · unfold ownF
      rw [if_neg (by omega), (h.par k (by omega) k2).1]
      refine ⟨by omega, ?_⟩
      rw [(h.cinner (k - 1) (by omega) (by omega)).1]
      omega
  · intro k k1 k2
    have := h.par k (by omega) k2
    rw [this.1, this.2]
    exact ⟨by omega, rfl⟩
  · exact fun x y a b => h.mono x y (Nat.zero_le _) a b
  · intro x k hx k1 k2 e
    by_cases c : x < n - 1
    · obtain ⟨c1, c2⟩ := h.cinner x (by omega) c
      have : x + 1 = k := by omega
      rw [c2, this]
    · have := (leafx x (by omega) hx).1
      omega
  · intro x hx
    have := h.blk x (by omega) hx
    have le := leads_le (fun y => freq (y + 0)) (2 * n - 1 - 0)
    have := h.cnt
    omega
  · exact fun x y hx hy e => h.same x y (by omega) hx (by omega) hy e
  · exact fun x hx => (h.edge_in x (by omega) hx).2.1
  · exact fun x hx => (h.edge_in x (by omega) hx).2.2
  · exact fun x y hx hy => h.edge_lt x y (by omega) hx (by omega) hy
  · intro a a1 a2
    have c := h.cnt
    rw [h.stk a a2]
    refine ⟨by omega, by omega, fun x hx => ?_⟩
    have := h.blk x (by omega) hx
    omega
  · intro a a' a1 a2 a3 a4 e
    rw [h.stk a a2, h.stk a' a4] at e
    exact e
  · have c : avail = 1 + leads freq (2 * n - 1) := h.cnt
    omega
  · have := h.sum
    rw [Nat.mul_zero, Finset.sum_Ico_succ_top (by omega), Finset.Ico_self, Finset.sum_empty] at this
    omega
  · intro c hc
    rw [(h.cleaf c hc).2.2]
    exact (h.cleaf c hc).2.1

theorem scStock_ok (k : Nat) : ∀ (i : Nat) (s : Dyn), DynSz s → i + k = 628 → (∀ a, a < i → s.stock.get a = a ∧ s.block.get a = 0) →
    ∃ st bl, scStock k i s = .ok { s with stock := st, block := bl } ∧ st.size = 884 ∧ bl.size = 884 ∧
      (∀ a, a < 628 → st.get a = a ∧ bl.get a = 0) ∧ ∀ a, 628 ≤ a → bl.get a = s.block.get a := by
  induction k with
  | zero =>
    intro i s hs hi h
    exact ⟨s.stock, s.block, rfl, hs.stock, hs.block, fun a ha => h a (by omega), fun _ _ => rfl⟩
  | succ k ih =>
    intro i s hs hi h
    rw [scStock, wr_ok (by rw [hs.stock]; omega), ok_bind, wr_ok (by rw [hs.block]; omega), ok_bind]
    obtain ⟨st, bl, e1, z1, z2, h1, h2⟩ := ih (i + 1) { s with stock := s.stock.upd i i, block := s.block.upd i 0 }
      ⟨hs.child, hs.parent, by simp [hs.block], hs.edge, by simp [hs.stock], hs.sNode, hs.freq⟩ (by omega) (by
        intro a ha
        simp only [Arr.get_upd]
        by_cases e : a = i
        · simp [e]
        · rw [if_neg e, if_neg e]; exact h a (by omega))
    refine ⟨st, bl, e1, z1, z2, h1, fun a ha => ?_⟩
    rw [h2 a ha]
    exact Arr.get_upd_ne _ _ _ _ (by omega)

theorem scLeaves_ok {n : Nat} (hn1 : 2 ≤ n) (hn : n ≤ 314) (k : Nat) : ∀ (i : Nat) (s : Dyn), DynSz s → s.nMax = n → i + k = n →
    (∀ c, c < i → s.child.get (2 * n - 2 - c) = 65535 - c ∧ s.freq.get (2 * n - 2 - c) = 1 ∧ s.sNode.get c = 2 * n - 2 - c ∧
      s.block.get (2 * n - 2 - c) = 1) → s.block.get (2 * n - 1) = 0 →
    ∃ ch fr sn bl, scLeaves k i s = .ok { s with freq := fr, child := ch, sNode := sn, block := bl } ∧
      ch.size = 884 ∧ fr.size = 884 ∧ sn.size = 442 ∧ bl.size = 884 ∧ bl.get (2 * n - 1) = 0 ∧
      (∀ c, c < n → ch.get (2 * n - 2 - c) = 65535 - c ∧ fr.get (2 * n - 2 - c) = 1 ∧ sn.get c = 2 * n - 2 - c ∧
        bl.get (2 * n - 2 - c) = 1) ∧ ∀ a, 628 ≤ a → bl.get a = s.block.get a := by
  induction k with
  | zero =>
    intro i s hs _ hi h hp
    exact ⟨s.child, s.freq, s.sNode, s.block, rfl, hs.child, hs.freq, hs.sNode, hs.block, hp, fun c hc => h c (by omega), fun _ _ => rfl⟩
  | succ k ih =>
    intro i s hs hN hi h hp
    rw [scLeaves]
    rw [hN, Nat.mul_comm n 2, wr_ok (by rw [hs.freq]; omega), ok_bind, wr_ok (by rw [hs.child]; omega), ok_bind, wr_ok (by rw [hs.sNode]; omega),
      ok_bind, wr_ok (by rw [hs.block]; omega), ok_bind]
    have := ih (i + 1) { s with
        freq := s.freq.upd (2 * n - 2 - i) 1, child := s.child.upd (2 * n - 2 - i) (65535 - i), sNode := s.sNode.upd i (2 * n - 2 - i),
        block := s.block.upd (2 * n - 2 - i) 1 }
      ⟨by simp [hs.child], hs.parent, by simp [hs.block], hs.edge, hs.stock, by simp [hs.sNode], by simp [hs.freq]⟩ hN (by omega)
      (by
        intro c hc
        simp only [Arr.get_upd]
        by_cases e : c = i
        · simp [e]
        · have g : ¬ (2 * n - 2 - c = 2 * n - 2 - i) := by omega
          rw [if_neg g, if_neg g, if_neg e, if_neg g]
          exact h c (by omega))
      (by simp only [Arr.get_upd]; rw [if_neg (by omega)]; exact hp)
    rw [hN] at this
    obtain ⟨ch, fr, sn, bl, e1, z1, z2, z3, z4, z5, h1, h2⟩ := this
    refine ⟨ch, fr, sn, bl, e1, z1, z2, z3, z4, z5, h1, fun a ha => ?_⟩
    rw [h2 a ha]
    exact Arr.get_upd_ne _ _ _ _ (by omega)

theorem scInner_ok {n : Nat} (hn1 : 2 ≤ n) (hn : n ≤ 314) (J : Nat) : ∀ (s : Dyn), DynSz s → J < n →
    SI n J s.child.get s.parent.get s.block.get s.edge.get s.stock.get s.sNode.get s.freq.get s.avail →
    ∃ s', scInner J (2 * J) s = .ok s' ∧ DynSz s' ∧ s'.nMax = s.nMax ∧ s'.n1 = s.n1 ∧
      SI n 0 s'.child.get s'.parent.get s'.block.get s'.edge.get s'.stock.get s'.sNode.get s'.freq.get s'.avail := by
  induction J with
  | zero => intro s hs _ h; exact ⟨s, rfl, hs, rfl, rfl, h⟩
  | succ j ih =>
    intro s hs hj h
    have hsum : s.freq.get (2 * (j + 1)) + s.freq.get (2 * (j + 1) - 1) ≤ n := by
      have s1 := h.sum
      rw [Finset.sum_Ico_succ_top (by omega), show Finset.Ico (j + 1) (2 * (j + 1)) = Finset.Ico (j + 1) (2 * j + 1 + 1) from rfl,
        Finset.sum_Ico_succ_top (by omega)] at s1
      rw [show 2 * (j + 1) - 1 = 2 * j + 1 from by omega]
      omega
    have hb1 := h.blk (j + 1) (by omega) (by omega)
    have hav : s.avail ≤ 628 := by
      rw [h.cnt]
      have := leads_le (fun y => s.freq.get (y + (j + 1))) (2 * n - 1 - (j + 1))
      omega
    have hav' : s.avail < 628 := by
      rw [h.cnt]
      have := leads_le (fun y => s.freq.get (y + (j + 1))) (2 * n - 1 - (j + 1))
      omega
    rw [scInner, rd_ok (by rw [hs.freq]; omega), ok_bind, rd_ok (by rw [hs.freq]; omega), ok_bind]
    simp only []
    rw [Nat.mod_eq_of_lt (by omega), wr_ok (by rw [hs.freq]; omega), ok_bind, wr_ok (by rw [hs.child]; omega), ok_bind,
      wr_ok (by rw [hs.parent]; omega), ok_bind, wr_ok (by rw [Arr.size_upd, hs.parent]; omega), ok_bind,
      rd_ok (by rw [Arr.size_upd, hs.freq]; omega), ok_bind]
    obtain ⟨f, hf⟩ : ∃ f, f = s.freq.get (2 * (j + 1)) + s.freq.get (2 * (j + 1) - 1) := ⟨_, rfl⟩
    rw [← hf]
    have fj : (s.freq.upd j f).get j = f := Arr.get_upd_same _ _ _
    have st := fun {block' edge' avail'} => SI.step (j := j) hn1 hn hj h (child' := (s.child.upd j (2 * (j + 1))).get)
      (parent' := ((s.parent.upd (2 * (j + 1) - 1) j).upd (2 * (j + 1)) j).get) (freq' := (s.freq.upd j f).get)
      (block' := block') (edge' := edge') (avail' := avail')
      (fun x => by rw [Arr.get_upd]) (fun x => by rw [Arr.get_upd, Arr.get_upd]) (fun x => by rw [Arr.get_upd, hf])
    rw [fj] at st
    by_cases g : f = (s.freq.upd j f).get (j + 1)
    · rw [if_pos g, rd_ok (by rw [hs.block]; omega), ok_bind, wr_ok (by rw [hs.block]; omega), ok_bind, wr_ok (by rw [hs.edge]; omega), ok_bind,
        ok_bind, show 2 * (j + 1) - 2 = 2 * j from by omega]
      exact ih _ ⟨by simp [hs.child], by simp [hs.parent], by simp [hs.block], by simp [hs.edge], hs.stock, hs.sNode, by simp [hs.freq]⟩ (by omega)
        (st (fun _ => ⟨rfl, fun x => by simp only [Arr.get_upd], fun x => by simp only [Arr.get_upd]⟩) (fun c => absurd g c))
    · have zz : DynSz { s with
          freq := s.freq.upd j f, child := s.child.upd j (2 * (j + 1)), parent := (s.parent.upd (2 * (j + 1) - 1) j).upd (2 * (j + 1)) j } :=
        ⟨by simp [hs.child], by simp [hs.parent], hs.block, hs.edge, hs.stock, hs.sNode, by simp [hs.freq]⟩
      have hst := h.stk s.avail hav'
      rw [if_neg g, newBlock_ok zz (by omega) (by simp only []; omega) (by simp only []; omega), ok_bind,
        show 2 * (j + 1) - 2 = 2 * j from by omega]
      simp only [hst]
      exact ih _ ⟨by simp [hs.child], by simp [hs.parent], by simp [hs.block], by simp [hs.edge], hs.stock, hs.sNode, by simp [hs.freq]⟩ (by omega)
        (st (fun c => absurd c g) (fun _ => ⟨rfl, fun x => by simp only [Arr.get_upd], fun x => by simp only [Arr.get_upd]⟩))

theorem wr_upd {a a' : Arr} {i v : Nat} (h : wr a i v = .ok a') : a' = a.upd i v := by
  unfold wr at h
  split at h
  · cases h; rfl
  · cases h

theorem newBlock_keep {q : Nat} {s s' : Dyn} (h : newBlock q s = .ok s') {a : Nat} (ha : a ≠ q) : s'.block.get a = s.block.get a := by
  unfold newBlock at h
  obtain ⟨b, _, h⟩ := bind_ok h
  obtain ⟨bl, h1, h⟩ := bind_ok h
  obtain ⟨ed, _, h⟩ := bind_ok h
  cases h
  rw [wr_upd h1]
  exact Arr.get_upd_ne _ _ _ _ ha

/-- The lower nodes take part in nothing here. -/
theorem scInner_keep (J : Nat) : ∀ (i : Nat) (s s' : Dyn), scInner J i s = .ok s' → J ≤ 628 → ∀ a, 628 ≤ a → s'.block.get a = s.block.get a := by
  induction J with
  | zero => intro i s s' h; cases h; exact fun _ _ _ => rfl
  | succ j ih =>
    intro i s s' h hj a ha
    rw [scInner] at h
    obtain ⟨_, _, h⟩ := bind_ok h
    obtain ⟨_, _, h⟩ := bind_ok h
    simp only [] at h
    obtain ⟨_, _, h⟩ := bind_ok h
    obtain ⟨_, _, h⟩ := bind_ok h
    obtain ⟨_, _, h⟩ := bind_ok h
    obtain ⟨_, _, h⟩ := bind_ok h
    obtain ⟨_, _, h⟩ := bind_ok h
    obtain ⟨s1, h1, h⟩ := bind_ok h
    rw [ih _ _ _ h (by omega) a ha]
    split at h1
    · obtain ⟨_, _, h1⟩ := bind_ok h1
      obtain ⟨_, h2, h1⟩ := bind_ok h1
      obtain ⟨_, _, h1⟩ := bind_ok h1
      cases h1
      rw [wr_upd h2]
      exact Arr.get_upd_ne _ _ _ _ (by omega)
    · exact newBlock_keep h1 (by omega)

/-- `startCDyn`: every symbol has weight one, whatever the tables held before. -/
theorem startCDyn_ok {n maxmatch : Nat} (hn1 : 2 ≤ n) (hn : n ≤ 314) {s : Dyn} (hs : DynSz s) :
    ∃ s', startCDyn n maxmatch s = .ok s' ∧ DynOk n (fun _ => 1) s' ∧
      (s'.n1 = if 256 + maxmatch - 3 + 1 ≤ n then n - 1 else 512) ∧ OrdF n (fun c => 2 * n - 2 - c) s'.child.get s'.freq.get ∧
      s'.avail = 1 + leads s'.freq.get (2 * n - 1) ∧ (∀ a, a < 628 → s'.stock.get a = a) ∧
      (∀ i, i < 2 * n - 1 → s'.block.get i < s'.avail) ∧ ∀ a, 628 ≤ a → s'.block.get a = s.block.get a := by
  unfold startCDyn
  simp only []
  obtain ⟨st, bl, e1, z1, z2, h1, k1⟩ := scStock_ok 628 0 { s with nMax := n, n1 := if 256 + maxmatch - 3 + 1 ≤ n then n - 1 else 512 }
    ⟨hs.child, hs.parent, hs.block, hs.edge, hs.stock, hs.sNode, hs.freq⟩ (by omega) (by intros; omega)
  rw [e1, ok_bind]
  obtain ⟨ch, fr, sn, bl', e2, y1, y2, y3, y4, hp, h2, k2⟩ := scLeaves_ok hn1 hn n 0 { s with
      nMax := n, n1 := if 256 + maxmatch - 3 + 1 ≤ n then n - 1 else 512, stock := st, block := bl }
    ⟨hs.child, hs.parent, z2, hs.edge, z1, hs.sNode, hs.freq⟩ rfl (by omega) (by intros; omega) (h1 _ (by omega)).2
  rw [e2, ok_bind]
  simp only []
  rw [wr_ok (by rw [hs.edge]; omega), ok_bind]
  have hx : ∀ x, n - 1 ≤ x → x < 2 * n - 1 → fr.get x = 1 ∧ bl'.get x = 1 := by
    intro x a b
    have := h2 (2 * n - 2 - x) (by omega)
    rw [show 2 * n - 2 - (2 * n - 2 - x) = x from by omega] at this
    exact ⟨this.2.1, this.2.2.2⟩
  have S : SI n (n - 1) ch.get s.parent.get bl'.get (s.edge.upd 1 (n - 1)).get st.get sn.get fr.get 2 := by
    refine ⟨fun c hc => ⟨(h2 c hc).1, (h2 c hc).2.1, (h2 c hc).2.2.1⟩, by intros; omega, by intros; omega, ?_, ?_, ?_, ?_, ?_, ?_,
      fun a ha => (h1 a ha).1, ?_, hp⟩
    · intro x y a b c
      rw [(hx x a (by omega)).1, (hx y (by omega) c).1]
    · rw [Finset.sum_congr rfl (g := fun _ => 1)]
      · simp; omega
      · intro x hx'
        have := Finset.mem_Ico.1 hx'
        exact (hx x this.1 (by omega)).1
    · intro x a b
      rw [(hx x a b).2]; omega
    · intro x y a b c d _
      rw [(hx x a b).2, (hx y c d).2]
    · intro x a b
      rw [(hx x a b).2, Arr.get_upd_same, (hx x a b).1, (hx (n - 1) (by omega) (by omega)).1]
      exact ⟨by omega, a, rfl⟩
    · intro x y a b c d
      rw [(hx x a b).2, Arr.get_upd_same] at d
      omega
    · have : ∀ M, 1 ≤ M → M ≤ n → leads (fun y => fr.get (y + (n - 1))) M = 1 := by
        intro M
        induction M with
        | zero => intro h; omega
        | succ M ih =>
          intro _ hM
          rw [leads]
          by_cases e : M = 0
          · subst e; simp [leads]
          · rw [ih (by omega) (by omega), if_neg]
            rw [(hx (M + (n - 1)) (by omega) (by omega)).1, (hx (M - 1 + (n - 1)) (by omega) (by omega)).1]
            omega
      rw [show 2 * n - 1 - (n - 1) = n from by omega, this n (by omega) (by omega)]
  obtain ⟨s', e3, w1, w2, w3, F⟩ := scInner_ok hn1 hn (n - 1) { s with
      nMax := n, n1 := if 256 + maxmatch - 3 + 1 ≤ n then n - 1 else 512, stock := st, block := bl', freq := fr, child := ch, sNode := sn,
      avail := 2, edge := s.edge.upd 1 (n - 1) }
    ⟨y1, hs.parent, y4, by simp [hs.edge], z1, y3, y2⟩ (by omega) S
  rw [show n * 2 - 2 = 2 * (n - 1) from by omega, e3]
  obtain ⟨T, W, B, f0, lw⟩ := F.finish hn1 hn
  refine ⟨s', rfl, ⟨⟨w1, T, W, B, by omega, lw⟩, w2, by omega⟩, w3, ?_, F.cnt, F.stk, fun x hx => (F.blk x (by omega) hx).2,
    fun a ha => (scInner_keep _ _ _ _ e3 (by omega) a ha).trans ((k2 a ha).trans (k1 a ha))⟩
  have leafx : ∀ x, n - 1 ≤ x → x < 2 * n - 1 → s'.child.get x = 65535 - (2 * n - 2 - x) := by
    intro x a b
    have := (F.cleaf (2 * n - 2 - x) (by omega)).1
    rw [show 2 * n - 2 - (2 * n - 2 - x) = x from by omega] at this
    exact this
  refine ⟨?_, ?_, ?_⟩
  · intro x y c d hx hy hc hd e1 e2 hlt
    have := T.inj hx (by omega : 2 * n - 2 - c < 2 * n - 1) (by rw [e1, (F.cleaf c hc).1])
    have := T.inj hy (by omega : 2 * n - 2 - d < 2 * n - 1) (by rw [e2, (F.cleaf d hd).1])
    omega
  · intro x y k l hx hy hk hl e1 e2 hkl
    have g1 : x < n - 1 := by
      by_contra g
      have := leafx x (by omega) hx
      omega
    have g2 : y < n - 1 := by
      by_contra g
      have := leafx y (by omega) hy
      omega
    have := (F.cinner x (by omega) g1).1
    have := (F.cinner y (by omega) g2).1
    omega
  · intro x y hxy hy e1 e2
    exfalso
    have g1 : n - 1 ≤ x := by
      by_contra g
      have := (F.cinner x (by omega) (by omega)).1
      omega
    have := leafx y (by omega) hy
    omega

/-- The weights after counting `c`: all halved first when the total has reached `0x8000`. -/
def bump (w : Nat → Nat) (full : Prop) [Decidable full] (c a : Nat) : Nat :=
  (if full then (w a + 1) / 2 else w a) + if a = c then 1 else 0

theorem updateC_ok {n : Nat} {w : Nat → Nat} (hn1 : 2 ≤ n) (hn : n ≤ 314) {c : Nat} {s : Dyn} (h : DynOk n w s) (hc : c < n) :
    ∃ s', updateC c s = .ok s' ∧ DynOk n (bump w (s.freq.get 0 = 0x8000) c) s' ∧ s'.n1 = s.n1 := by
  have hs := h.inv.sz
  by_cases g : s.freq.get 0 = 0x8000
  · obtain ⟨s1, e1, h1, lt, n1, _⟩ := reconst_ok hn1 hn h
    obtain ⟨s', e2, h2, n2, _⟩ := updateC_plain hn1 hn h1 hc lt
    refine ⟨s', ?_, ⟨h2.inv.congr fun a ha => by simp [bump, g], h2.size, h2.cap⟩, by rw [n2, n1]⟩
    unfold updateC at e2 ⊢
    rw [rd_ok (by rw [h1.inv.sz.freq]; omega), ok_bind, if_neg (by omega), ok_bind] at e2
    rw [rd_ok (by rw [hs.freq]; omega), ok_bind, if_pos g, h.size, e1, ok_bind]
    exact e2
  · obtain ⟨s', e2, h2, n2, _⟩ := updateC_plain hn1 hn h hc (by have := h.cap; omega)
    exact ⟨s', e2, ⟨h2.inv.congr fun a ha => by simp [bump, g], h2.size, h2.cap⟩, n2⟩

end Lha
