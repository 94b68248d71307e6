import Verif.Proof.Reconst
/-!
# Rebuilding the adaptive tree: collecting the leaves, linking
-/

namespace Lha

/-- The first loop of `reconst` has passed the nodes below `i` and kept `j` leaves. -/
structure RL (N i j : Nat) (c0 f0 block edge : Nat → Nat) (child freq stock : Nat → Nat) (avail : Nat) : Prop where
  ji : j ≤ i
  rest : ∀ x, i ≤ x → child x = c0 x ∧ freq x = f0 x
  kept : ∀ a, a < j → ∃ x, x < i ∧ 32768 ≤ c0 x ∧ child a = c0 x ∧ freq a = (f0 x + 1) / 2
  mono : ∀ a b, a ≤ b → b < j → freq b ≤ freq a
  all : ∀ x, x < i → 32768 ≤ c0 x → ∃ a, a < j ∧ child a = c0 x
  inj : ∀ a b, a < j → b < j → child a = child b → a = b
  cnt : 1 + leads f0 N ≤ avail + leads f0 i ∧ avail + leads f0 i + N ≤ 628 + leads f0 N
  free : ∀ a, avail ≤ a → a < 628 → 1 ≤ stock a ∧ stock a < 884 ∧ ∀ x, x < N → i ≤ edge (block x) → block x ≠ stock a
  sinj : ∀ a a', avail ≤ a → a < 628 → avail ≤ a' → a' < 628 → stock a = stock a' → a = a'
  ordr : ∀ a b x y, a < b → b < j → x < N → y < N → child a = c0 x → child b = c0 y → x < y

variable {N i j : Nat} {c0 f0 block edge child freq stock child' freq' stock' : Nat → Nat} {avail avail' : Nat}

theorem leads_mono (f : Nat → Nat) (a d : Nat) : leads f a ≤ leads f (a + d) := by
  induction d with
  | zero => exact Nat.le_refl _
  | succ d ih =>
    rw [← Nat.add_assoc]
    have : leads f (a + d + 1) = leads f (a + d) + (if a + d = 0 ∨ f (a + d) ≠ f (a + d - 1) then 1 else 0) := rfl
    omega

/-- The node `i` begins a block. -/
theorem leader_iff (B : BlockF N block edge stock avail f0) (hmono : ∀ i j, i ≤ j → j < N → f0 j ≤ f0 i) (hi : i < N) :
    edge (block i) = i ↔ (i = 0 ∨ f0 i ≠ f0 (i - 1)) := by
  constructor
  · intro h
    by_cases h0 : i = 0
    · exact Or.inl h0
    · have := B.edge_lt i (i - 1) hi (by omega)
      right; omega
  · intro h
    by_contra g
    have h1 := B.edge_le i hi
    have h2 := B.edge_eq i hi
    have h3 := hmono (edge (block i)) (i - 1) (by omega) (by omega)
    have h4 := hmono (i - 1) i (by omega) hi
    omega

/-- The part about leaves. -/
theorem RL.leafStep (h : RL N i j c0 f0 block edge child freq stock avail) (hmono : ∀ i j, i ≤ j → j < N → f0 j ≤ f0 i)
    (hinj : ∀ x y, x < N → y < N → c0 x = c0 y → x = y) (hi : i < N) (hk : 32768 ≤ c0 i)
    (hc : ∀ x, child' x = if x = j then c0 i else child x) (hf : ∀ x, freq' x = if x = j then (f0 i + 1) / 2 else freq x)
    (hcnt : 1 + leads f0 N ≤ avail' + leads f0 (i + 1) ∧ avail' + leads f0 (i + 1) + N ≤ 628 + leads f0 N)
    (hfree : ∀ a, avail' ≤ a → a < 628 → 1 ≤ stock' a ∧ stock' a < 884 ∧ ∀ x, x < N → i + 1 ≤ edge (block x) → block x ≠ stock' a)
    (hsinj : ∀ a a', avail' ≤ a → a < 628 → avail' ≤ a' → a' < 628 → stock' a = stock' a' → a = a') :
    RL N (i + 1) (j + 1) c0 f0 block edge child' freq' stock' avail' := by
  have ji := h.ji
  have cn : ∀ x, x ≠ j → child' x = child x := fun x hx => by rw [hc, if_neg hx]
  have fn : ∀ x, x ≠ j → freq' x = freq x := fun x hx => by rw [hf, if_neg hx]
  have cj : child' j = c0 i := by rw [hc, if_pos rfl]
  have fj : freq' j = (f0 i + 1) / 2 := by rw [hf, if_pos rfl]
  have hnew : ∀ a, a < j → child a ≠ c0 i := by
    intro a ha e
    obtain ⟨x, x1, _, x3, _⟩ := h.kept a ha
    have := hinj x i (by omega) hi (x3.symm.trans e)
    omega
  refine ⟨by omega, ?_, ?_, ?_, ?_, ?_, hcnt, hfree, hsinj, ?_⟩
  · intro x hx
    rw [cn x (by omega), fn x (by omega)]
    exact h.rest x (by omega)
  · intro a ha
    by_cases e : a = j
    · exact ⟨i, by omega, hk, by rw [e, cj], by rw [e, fj]⟩
    · obtain ⟨x, x1, x2, x3, x4⟩ := h.kept a (by omega)
      exact ⟨x, by omega, x2, by rw [cn a e, x3], by rw [fn a e, x4]⟩
  · intro a b hab hb
    by_cases e : b = j
    · by_cases e' : a = j
      · rw [e, e']
      · rw [e, fj, fn a e']
        obtain ⟨x, x1, x2, x3, x4⟩ := h.kept a (by omega)
        rw [x4]
        have := hmono x i (by omega) hi
        omega
    · rw [fn a (by omega), fn b e]
      exact h.mono a b hab (by omega)
  · intro x hx hk'
    by_cases e : x = i
    · exact ⟨j, by omega, by rw [cj, e]⟩
    · obtain ⟨a, a1, a2⟩ := h.all x (by omega) hk'
      exact ⟨a, by omega, by rw [cn a (by omega), a2]⟩
  · intro a b ha hb e
    by_cases ea : a = j
    · by_cases eb : b = j
      · omega
      · rw [ea, cj, cn b eb] at e
        exact absurd e.symm (hnew b (by omega))
    · by_cases eb : b = j
      · rw [eb, cj, cn a ea] at e
        exact absurd e (hnew a (by omega))
      · rw [cn a ea, cn b eb] at e
        exact h.inj a b (by omega) (by omega) e
  · intro a b x y hab hb hx hy e1 e2
    rw [cn a (by omega)] at e1
    by_cases eb : b = j
    · rw [eb, cj] at e2
      have := hinj i y hi hy e2
      obtain ⟨x0, x1, _, x3, _⟩ := h.kept a (by omega)
      have := hinj x x0 hx (by omega) (e1.symm.trans x3)
      omega
    · rw [cn b eb] at e2
      exact h.ordr a b x y hab (by omega) hx hy e1 e2

theorem RL.innerStep (h : RL N i j c0 f0 block edge child freq stock avail)
    (hk : ¬ 32768 ≤ c0 i)
    (hcnt : 1 + leads f0 N ≤ avail' + leads f0 (i + 1) ∧ avail' + leads f0 (i + 1) + N ≤ 628 + leads f0 N)
    (hfree : ∀ a, avail' ≤ a → a < 628 → 1 ≤ stock' a ∧ stock' a < 884 ∧ ∀ x, x < N → i + 1 ≤ edge (block x) → block x ≠ stock' a)
    (hsinj : ∀ a a', avail' ≤ a → a < 628 → avail' ≤ a' → a' < 628 → stock' a = stock' a' → a = a') :
    RL N (i + 1) j c0 f0 block edge child freq stock' avail' := by
  have ji := h.ji
  refine ⟨by omega, fun x hx => h.rest x (by omega), ?_, h.mono, ?_, h.inj, hcnt, hfree, hsinj, h.ordr⟩
  · intro a ha
    obtain ⟨x, x1, x2⟩ := h.kept a ha
    exact ⟨x, by omega, x2⟩
  · intro x hx hk'
    by_cases e : x = i
    · rw [e] at hk'; omega
    · exact h.all x (by omega) hk'

/-- A block goes back to the stock. -/
theorem RL.giveBack {st0 : Nat → Nat} {av0 : Nat} (h : RL N i j c0 f0 block edge child freq stock avail)
    (B : BlockF N block edge st0 av0 f0)
    (hmono : ∀ i j, i ≤ j → j < N → f0 j ≤ f0 i) (hi : i < N) (hl : edge (block i) = i)
    (hs : ∀ a, stock' a = if a = avail - 1 then block i else stock a) :
    2 ≤ avail ∧ avail ≤ 628 ∧ (1 + leads f0 N ≤ avail - 1 + leads f0 (i + 1) ∧ avail - 1 + leads f0 (i + 1) + N ≤ 628 + leads f0 N) ∧
    (∀ a, avail - 1 ≤ a → a < 628 → 1 ≤ stock' a ∧ stock' a < 884 ∧ ∀ x, x < N → i + 1 ≤ edge (block x) → block x ≠ stock' a) ∧
    (∀ a a', avail - 1 ≤ a → a < 628 → avail - 1 ≤ a' → a' < 628 → stock' a = stock' a' → a = a') := by
  have c := h.cnt
  have le := leads_le f0 N
  have l1 : leads f0 (i + 1) = leads f0 i + 1 := by rw [leads, if_pos ((leader_iff B hmono hi).1 hl)]
  have l2 : leads f0 (i + 1) ≤ leads f0 N := by
    rw [show N = i + 1 + (N - (i + 1)) from by omega]
    exact leads_mono f0 _ _
  have s1 : stock' (avail - 1) = block i := by rw [hs, if_pos rfl]
  have sn : ∀ a, a ≠ avail - 1 → stock' a = stock a := fun a ha => by rw [hs, if_neg ha]
  have hb := B.blk i hi
  refine ⟨by omega, by omega, by omega, ?_, ?_⟩
  · intro a ha1 ha2
    by_cases e : a = avail - 1
    · rw [e, s1]
      refine ⟨hb.1, hb.2, fun x hx hx' e' => ?_⟩
      rw [e', hl] at hx'
      omega
    · rw [sn a e]
      obtain ⟨f1, f2, f3⟩ := h.free a (by omega) ha2
      exact ⟨f1, f2, fun x hx hx' => f3 x hx (by omega)⟩
  · intro a a' h1 h2 h3 h4 e
    by_cases e1 : a = avail - 1
    · by_cases e2 : a' = avail - 1
      · omega
      · rw [e1, s1, sn a' e2] at e
        exact absurd e ((h.free a' (by omega) h4).2.2 i hi (by omega))
    · by_cases e2 : a' = avail - 1
      · rw [e2, s1, sn a e1] at e
        exact absurd e.symm ((h.free a (by omega) h2).2.2 i hi (by omega))
      · rw [sn a e1, sn a' e2] at e
        exact h.sinj a a' (by omega) h2 (by omega) h4 e

theorem rcLeaves_ok {s0 : Dyn} (B : BlockF N s0.block.get s0.edge.get s0.stock.get s0.avail s0.freq.get)
    (hmono : ∀ i j, i ≤ j → j < N → s0.freq.get j ≤ s0.freq.get i) (hN : N ≤ 627) (hcap : s0.freq.get 0 ≤ 32769)
    (hinj : ∀ x y, x < N → y < N → s0.child.get x = s0.child.get y → x = y) (cnt : Nat) : ∀ (i j : Nat) (s : Dyn),
    DynSz s → i + cnt = N → s.block = s0.block → s.edge = s0.edge → s.parent = s0.parent → s.sNode = s0.sNode → s.nMax = s0.nMax →
    s.n1 = s0.n1 →
    RL N i j s0.child.get s0.freq.get s0.block.get s0.edge.get s.child.get s.freq.get s.stock.get s.avail →
    ∃ j' s', rcLeaves cnt i j s = .ok (j', s') ∧ DynSz s' ∧ s'.block = s0.block ∧ s'.edge = s0.edge ∧ s'.parent = s0.parent ∧
      s'.sNode = s0.sNode ∧ s'.nMax = s0.nMax ∧ s'.n1 = s0.n1 ∧
      RL N N j' s0.child.get s0.freq.get s0.block.get s0.edge.get s'.child.get s'.freq.get s'.stock.get s'.avail := by
  induction cnt with
  | zero =>
    intro i j s hs hi e1 e2 e3 e4 e5 e6 h
    rw [Nat.add_zero] at hi
    subst hi
    exact ⟨j, s, rfl, hs, e1, e2, e3, e4, e5, e6, h⟩
  | succ cnt ih =>
    intro i j s hs hi e1 e2 e3 e4 e5 e6 h
    have hiN : i < N := by omega
    have ji := h.ji
    have r := h.rest i (by omega)
    have hb := B.blk i hiN
    have h0 := hmono 0 i (by omega) hiN
    have zb : s0.block.size = 884 := e1 ▸ hs.block
    have ze : s0.edge.size = 884 := e2 ▸ hs.edge
    rw [rcLeaves, rd_ok (by rw [hs.child]; omega), ok_bind, rd_ok (by rw [hs.block]; omega), ok_bind, r.1, e1]
    -- what happens to the stock when the node does not begin a block
    have keep : s0.edge.get (s0.block.get i) ≠ i → (1 + leads s0.freq.get N ≤ s.avail + leads s0.freq.get (i + 1) ∧
        s.avail + leads s0.freq.get (i + 1) + N ≤ 628 + leads s0.freq.get N) ∧
        ∀ a, s.avail ≤ a → a < 628 → 1 ≤ s.stock.get a ∧ s.stock.get a < 884 ∧
          ∀ x, x < N → i + 1 ≤ s0.edge.get (s0.block.get x) → s0.block.get x ≠ s.stock.get a := by
      intro hl
      constructor
      · have := h.cnt
        rw [leads, if_neg (fun g => hl ((leader_iff B hmono hiN).2 g))]
        omega
      · intro a a1 a2
        obtain ⟨f1, f2, f3⟩ := h.free a a1 a2
        exact ⟨f1, f2, fun x hx hx' => f3 x hx (by omega)⟩
    by_cases hk : 32768 ≤ s0.child.get i
    · rw [if_pos hk, rd_ok (by rw [hs.freq]; omega), ok_bind, wr_ok (by rw [hs.freq]; omega), ok_bind,
        wr_ok (by rw [hs.child]; omega), ok_bind, rd_ok (by rw [hs.edge]; omega), ok_bind, r.2, Nat.mod_eq_of_lt (by omega), e2]
      have hc : ∀ x, (s.child.upd j (s0.child.get i)).get x = if x = j then s0.child.get i else s.child.get x :=
        fun x => by rw [Arr.get_upd]
      have hf : ∀ x, (s.freq.upd j ((s0.freq.get i + 1) / 2)).get x = if x = j then (s0.freq.get i + 1) / 2 else s.freq.get x :=
        fun x => by rw [Arr.get_upd]
      by_cases hl : s0.edge.get (s0.block.get i) = i
      · rw [if_pos hl]
        obtain ⟨g1, g2, g3, g4, g5⟩ := h.giveBack (stock' := (s.stock.upd (s.avail - 1) (s0.block.get i)).get) B hmono hiN hl
          (fun a => by rw [Arr.get_upd])
        rw [if_neg (by omega), wr_ok (by rw [hs.stock]; omega), ok_bind]
        exact ih (i + 1) (j + 1) _ ⟨by simp [hs.child], hs.parent, zb, ze, by simp [hs.stock], hs.sNode, by simp [hs.freq]⟩
          (by omega) rfl rfl e3 e4 e5 e6 (h.leafStep hmono hinj hiN hk hc hf g3 g4 g5)
      · rw [if_neg hl]
        obtain ⟨k1, k2⟩ := keep hl
        exact ih (i + 1) (j + 1) _ ⟨by simp [hs.child], hs.parent, zb, ze, hs.stock, hs.sNode, by simp [hs.freq]⟩
          (by omega) rfl rfl e3 e4 e5 e6 (h.leafStep hmono hinj hiN hk hc hf k1 k2 h.sinj)
    · rw [if_neg hk, rd_ok (by rw [hs.edge]; omega), ok_bind, e2]
      by_cases hl : s0.edge.get (s0.block.get i) = i
      · rw [if_pos hl]
        obtain ⟨g1, g2, g3, g4, g5⟩ := h.giveBack (stock' := (s.stock.upd (s.avail - 1) (s0.block.get i)).get) B hmono hiN hl
          (fun a => by rw [Arr.get_upd])
        rw [if_neg (by omega), wr_ok (by rw [hs.stock]; omega), ok_bind]
        exact ih (i + 1) j _ ⟨hs.child, hs.parent, zb, ze, by simp [hs.stock], hs.sNode, hs.freq⟩
          (by omega) rfl rfl e3 e4 e5 e6 (h.innerStep hk g3 g4 g5)
      · rw [if_neg hl]
        obtain ⟨k1, k2⟩ := keep hl
        exact ih (i + 1) j _ hs (by omega) e1 e2 e3 e4 e5 e6 (h.innerStep hk k1 k2 h.sinj)

/-- The blocks of the nodes below `i`. -/
structure PB (N i : Nat) (block edge stock : Nat → Nat) (avail : Nat) (freq : Nat → Nat) : Prop where
  blk : ∀ x, x < i → 1 ≤ block x ∧ block x < 884
  same : ∀ x y, x < i → y < i → freq x = freq y → block x = block y
  edge_le : ∀ x, x < i → edge (block x) ≤ x
  edge_eq : ∀ x, x < i → freq (edge (block x)) = freq x
  edge_lt : ∀ x y, x < i → y < edge (block x) → freq x < freq y
  free : ∀ a, avail ≤ a → a < 628 → 1 ≤ stock a ∧ stock a < 884 ∧ ∀ x, x < i → block x ≠ stock a
  inj : ∀ a a', avail ≤ a → a < 628 → avail ≤ a' → a' < 628 → stock a = stock a' → a = a'
  cnt : 1 + leads freq i ≤ avail ∧ avail + N ≤ 628 + leads freq i

theorem PB.old {block' : Nat → Nat} (h : PB N i block edge stock avail freq) (hmono : ∀ x y, x ≤ y → y < i + 1 → freq y ≤ freq x) (h1 : 1 ≤ i)
    (hf : freq i = freq (i - 1)) (hb : ∀ x, block' x = if x = i then block (i - 1) else block x) :
    PB N (i + 1) block' edge stock avail freq := by
  have bi : block' i = block (i - 1) := by rw [hb, if_pos rfl]
  have bn : ∀ x, x ≠ i → block' x = block x := fun x hx => by rw [hb, if_neg hx]
  have red : ∀ x, x < i + 1 → ∃ y, y < i ∧ y ≤ x ∧ block' x = block y ∧ freq x = freq y := by
    intro x hx
    by_cases e : x = i
    · exact ⟨i - 1, by omega, by omega, by rw [e, bi], by rw [e, hf]⟩
    · exact ⟨x, by omega, by omega, bn x e, rfl⟩
  refine ⟨?_, ?_, ?_, ?_, ?_, ?_, h.inj, ?_⟩
  · intro x hx
    obtain ⟨y, y1, _, y2, y3⟩ := red x hx
    rw [y2]; exact h.blk y y1
  · intro x y hx hy e
    obtain ⟨x', x1, _, x2, x3⟩ := red x hx
    obtain ⟨y', y1, _, y2, y3⟩ := red y hy
    rw [x2, y2]
    exact h.same _ _ x1 y1 (by omega)
  · intro x hx
    obtain ⟨y, y1, y0, y2, y3⟩ := red x hx
    have := h.edge_le y y1
    rw [y2]; omega
  · intro x hx
    obtain ⟨y, y1, y0, y2, y3⟩ := red x hx
    rw [y2, y3]; exact h.edge_eq y y1
  · intro x z hx hz
    obtain ⟨y, y1, y0, y2, y3⟩ := red x hx
    rw [y2] at hz
    rw [y3]; exact h.edge_lt y z y1 hz
  · intro a a1 a2
    obtain ⟨f1, f2, f3⟩ := h.free a a1 a2
    refine ⟨f1, f2, fun x hx => ?_⟩
    obtain ⟨y, y1, y0, y2, y3⟩ := red x hx
    rw [y2]; exact f3 y y1
  · rw [leads, if_neg (by omega)]
    exact h.cnt

theorem PB.new {block' edge' : Nat → Nat} (h : PB N i block edge stock avail freq) (hmono : ∀ x y, x ≤ y → y < i + 1 → freq y ≤ freq x)
    (hi : i < N) (hf : i = 0 ∨ freq i ≠ freq (i - 1)) (hb : ∀ x, block' x = if x = i then stock avail else block x)
    (he : ∀ x, edge' x = if x = stock avail then i else edge x) :
    avail < 628 ∧ PB N (i + 1) block' edge' stock (avail + 1) freq := by
  have le := leads_le freq i
  have c := h.cnt
  have hav : avail < 628 := by omega
  obtain ⟨s1, s2, s3⟩ := h.free avail (by omega) hav
  have bi : block' i = stock avail := by rw [hb, if_pos rfl]
  have bn : ∀ x, x ≠ i → block' x = block x := fun x hx => by rw [hb, if_neg hx]
  have ei : edge' (stock avail) = i := by rw [he, if_pos rfl]
  have en : ∀ x, x < i → edge' (block x) = edge (block x) := fun x hx => by rw [he, if_neg (s3 x hx)]
  have low : ∀ x, x < i → freq i < freq x := by
    intro x hx
    have a := hmono x (i - 1) (by omega) (by omega)
    have b := hmono (i - 1) i (by omega) (by omega)
    omega
  refine ⟨hav, ?_, ?_, ?_, ?_, ?_, ?_, ?_, ?_⟩
  · intro x hx
    by_cases e : x = i
    · rw [e, bi]; exact ⟨s1, s2⟩
    · rw [bn x e]; exact h.blk x (by omega)
  · intro x y hx hy e
    by_cases ex : x = i
    · by_cases ey : y = i
      · rw [ex, ey]
      · have := low y (by omega); rw [ex] at e; omega
    · by_cases ey : y = i
      · have := low x (by omega); rw [ey] at e; omega
      · rw [bn x ex, bn y ey]; exact h.same x y (by omega) (by omega) e
  · intro x hx
    by_cases e : x = i
    · rw [e, bi, ei]
    · rw [bn x e, en x (by omega)]; exact h.edge_le x (by omega)
  · intro x hx
    by_cases e : x = i
    · rw [e, bi, ei]
    · rw [bn x e, en x (by omega)]; exact h.edge_eq x (by omega)
  · intro x y hx hy
    by_cases e : x = i
    · rw [e, bi, ei] at hy; rw [e]; exact low y hy
    · rw [bn x e, en x (by omega)] at hy; exact h.edge_lt x y (by omega) hy
  · intro a a1 a2
    obtain ⟨f1, f2, f3⟩ := h.free a (by omega) a2
    refine ⟨f1, f2, fun x hx => ?_⟩
    by_cases e : x = i
    · rw [e, bi]
      intro g
      have := h.inj avail a (by omega) hav (by omega) a2 g
      omega
    · rw [bn x e]; exact f3 x (by omega)
  · intro a a' a1 a2 a3 a4
    exact h.inj a a' (by omega) a2 (by omega) a4
  · rw [leads, if_pos hf]
    omega

theorem rcLink_ok {n : Nat} (hn : n ≤ 314) {s0 : Dyn}
    (hv : ∀ x, x < 2 * n - 1 → ValidF n (s0.child.get x))
    (hinj : ∀ x y, x < 2 * n - 1 → y < 2 * n - 1 → s0.child.get x = s0.child.get y → x = y)
    (hmono : ∀ x y, x ≤ y → y < 2 * n - 1 → s0.freq.get y ≤ s0.freq.get x) (hpos : ∀ x, x < 2 * n - 1 → 1 ≤ s0.freq.get x)
    (cnt : Nat) : ∀ (i f b : Nat) (s : Dyn),
    DynSz s → i + cnt = 2 * n - 1 → s.child = s0.child → s.freq = s0.freq → s.nMax = s0.nMax → s.n1 = s0.n1 →
    f = (if i = 0 then 0 else s0.freq.get (i - 1)) → (1 ≤ i → b = s.block.get (i - 1)) →
    (∀ x, x < i → ownF s.parent.get s.sNode.get (s0.child.get x) = x) →
    (∀ k, 1 ≤ k → k < n → s.parent.get (2 * k - 1) = s.parent.get (2 * k)) →
    PB (2 * n - 1) i s.block.get s.edge.get s.stock.get s.avail s0.freq.get → s.block.get (2 * n - 1) = 0 →
    ∃ s', rcLink cnt i f b s = .ok s' ∧ DynSz s' ∧ s'.child = s0.child ∧ s'.freq = s0.freq ∧ s'.nMax = s0.nMax ∧ s'.n1 = s0.n1 ∧
      (∀ x, x < 2 * n - 1 → ownF s'.parent.get s'.sNode.get (s0.child.get x) = x) ∧
      (∀ k, 1 ≤ k → k < n → s'.parent.get (2 * k - 1) = s'.parent.get (2 * k)) ∧
      PB (2 * n - 1) (2 * n - 1) s'.block.get s'.edge.get s'.stock.get s'.avail s0.freq.get ∧ s'.block.get (2 * n - 1) = 0 := by
  induction cnt with
  | zero =>
    intro i f b s hs hi e1 e2 e3 e4 _ _ ho hp P hpad
    rw [Nat.add_zero] at hi
    subst hi
    exact ⟨s, rfl, hs, e1, e2, e3, e4, ho, hp, P, hpad⟩
  | succ cnt ih =>
    intro i f b s hs hi e1 e2 e3 e4 hf hb ho hp P hpad
    have hiN : i < 2 * n - 1 := by omega
    obtain ⟨pa, sn, ep, z1, z2, ho', hp', _, _⟩ := setPar_ok hn i hs (hv i hiN) hp
    rw [rcLink, rd_ok (by rw [hs.child]; omega), ok_bind, e1]
    have es : ∀ k : Dyn → G Dyn, ((if 32768 ≤ s0.child.get i then do
        let sn ← wr s.sNode (65535 - s0.child.get i) i
        .ok { s with sNode := sn }
      else if s0.child.get i = 0 then panic
      else do
        let pa ← wr s.parent (s0.child.get i - 1) i
        let pa ← wr pa (s0.child.get i) i
        .ok { s with parent := pa } : G Dyn) >>= k) = k { s with parent := pa, sNode := sn } := by
      intro k
      rw [← ok_bind (f := k), ← ep]
      rfl
    rw [e1] at es
    rw [es]
    clear es ep
    have mono' : ∀ x y, x ≤ y → y < i + 1 → s0.freq.get y ≤ s0.freq.get x := fun x y a c => hmono x y a (by omega)
    have own1 : ∀ x, x < i + 1 → ownF pa.get sn.get (s0.child.get x) = x := by
      intro x hx
      rw [ho' _ (hv x (by omega))]
      by_cases e : x = i
      · rw [if_pos (by rw [e]), e]
      · rw [if_neg (fun g => e (hinj x i (by omega) hiN g))]
        exact ho x (by omega)
    rw [rd_ok (by rw [hs.freq]; omega), ok_bind]
    simp only []
    rw [e2]
    by_cases g : s0.freq.get i = f
    · have h1 : 1 ≤ i := by
        by_contra c
        have : i = 0 := by omega
        rw [if_pos this] at hf
        have := hpos i hiN
        omega
      rw [if_neg (by omega)] at hf
      rw [if_pos g, wr_ok (by rw [hs.block]; omega), ok_bind]
      refine ih (i + 1) f b _ ⟨e1 ▸ hs.child, z1, by simp [hs.block], hs.edge, hs.stock, z2, e2 ▸ hs.freq⟩ (by omega) rfl rfl e3 e4 ?_ ?_ own1 hp' ?_ ?_
      · rw [if_neg (by omega), Nat.add_sub_cancel, g]
      · intro _
        simp only [Nat.add_sub_cancel, Arr.get_upd_same]
      · exact P.old mono' h1 (by omega) (fun x => by simp only [Arr.get_upd]; rw [hb h1])
      · simp only []
        rw [Arr.get_upd_ne _ _ _ _ (by omega)]; exact hpad
    · have hfi : i = 0 ∨ s0.freq.get i ≠ s0.freq.get (i - 1) := by
        by_cases c : i = 0
        · exact Or.inl c
        · rw [if_neg c] at hf
          right; omega
      obtain ⟨q1, q2⟩ := P.new (block' := (s.block.upd i (s.stock.get s.avail)).get) (edge' := (s.edge.upd (s.stock.get s.avail) i).get)
        mono' (by omega) hfi (fun x => by rw [Arr.get_upd]) (fun x => by rw [Arr.get_upd])
      obtain ⟨f1, f2, _⟩ := P.free s.avail (by omega) q1
      rw [if_neg g, rd_ok (by rw [hs.stock]; omega), ok_bind]
      have zz : DynSz { s with child := s0.child, parent := pa, sNode := sn, freq := s0.freq } :=
        ⟨e1 ▸ hs.child, z1, hs.block, hs.edge, hs.stock, z2, e2 ▸ hs.freq⟩
      rw [newBlock_ok zz (by omega) (by simp only []; omega) (by simp only []; omega), ok_bind]
      refine ih (i + 1) _ _ _ ⟨e1 ▸ hs.child, z1, by simp [hs.block], by simp [hs.edge], hs.stock, z2, e2 ▸ hs.freq⟩ (by omega) rfl rfl e3 e4
        ?_ ?_ own1 hp' q2 ?_
      · rw [if_neg (by omega), Nat.add_sub_cancel]
      · intro _
        simp only [Nat.add_sub_cancel, Arr.get_upd_same]
      · simp only []
        rw [Arr.get_upd_ne _ _ _ _ (by omega)]; exact hpad

theorem pairs_sum (f : Nat → Nat) (m : Nat) : ∑ i ∈ Finset.range (2 * m + 1), f i =
    f 0 + ∑ k ∈ Finset.Ico 1 (m + 1), (f (2 * k) + f (2 * k - 1)) := by
  induction m with
  | zero => simp
  | succ m ih =>
    have e := Finset.sum_Ico_succ_top (a := 1) (b := m + 1) (by omega) (fun k => f (2 * k) + f (2 * k - 1))
    rw [show 2 * (m + 1) + 1 = 2 * m + 1 + 1 + 1 from by omega, Finset.sum_range_succ, Finset.sum_range_succ, ih, e]
    have e1 : f (2 * (m + 1)) = f (2 * m + 2) := rfl
    have e2 : f (2 * (m + 1) - 1) = f (2 * m + 1) := rfl
    have e3 : f (2 * m + 1 + 1) = f (2 * m + 2) := rfl
    simp only [e1, e2, e3]
    omega

/-- The root weighs as much as all leaves. -/
theorem tree_sum {n : Nat} {child parent sNode freq : Nat → Nat} (T : TreeF n child parent sNode) (hn1 : 2 ≤ n) (hn : n ≤ 314)
    (W : WeightF n 0 child freq) : ∑ c ∈ Finset.range n, freq (sNode c) = freq 0 := by
  have oL : ∀ c, c < n → sNode c < 2 * n - 1 ∧ child (sNode c) = 65535 - c := by
    intro c hc
    have := T.owner (65535 - c) (Or.inl ⟨c, hc, rfl⟩)
    unfold ownF at this
    rw [if_pos (by omega), show 65535 - (65535 - c) = c from by omega] at this
    exact this
  have oI : ∀ k, 1 ≤ k → k < n → parent (2 * k) < 2 * n - 1 ∧ child (parent (2 * k)) = 2 * k := by
    intro k h1 h2
    have := T.owner (2 * k) (Or.inr ⟨k, h1, h2, rfl⟩)
    unfold ownF at this
    rw [if_neg (by omega)] at this
    exact this
  have hU : Finset.range (2 * n - 1) = (Finset.range n).image sNode ∪ (Finset.Ico 1 n).image (fun k => parent (2 * k)) := by
    ext x
    simp only [Finset.mem_range, Finset.mem_union, Finset.mem_image, Finset.mem_Ico]
    constructor
    · intro hx
      obtain ⟨v, o⟩ := T.node x hx
      rcases v with ⟨c, c1, c2⟩ | ⟨k, k1, k2, k3⟩
      · left
        refine ⟨c, c1, ?_⟩
        rw [c2] at o
        unfold ownF at o
        rw [if_pos (by omega), show 65535 - (65535 - c) = c from by omega] at o
        exact o
      · right
        refine ⟨k, ⟨k1, k2⟩, ?_⟩
        rw [k3] at o
        unfold ownF at o
        rw [if_neg (by omega)] at o
        exact o
    · rintro (⟨c, c1, rfl⟩ | ⟨k, ⟨k1, k2⟩, rfl⟩)
      · exact (oL c c1).1
      · exact (oI k k1 k2).1
  have hD : Disjoint ((Finset.range n).image sNode) ((Finset.Ico 1 n).image (fun k => parent (2 * k))) := by
    rw [Finset.disjoint_left]
    intro x h1 h2
    simp only [Finset.mem_range, Finset.mem_image, Finset.mem_Ico] at h1 h2
    obtain ⟨c, c1, c2⟩ := h1
    obtain ⟨k, ⟨k1, k2⟩, k3⟩ := h2
    have a := (oL c c1).2
    have b := (oI k k1 k2).2
    rw [c2] at a
    rw [k3] at b
    omega
  have e1 : ∑ i ∈ Finset.range (2 * n - 1), freq i = ∑ c ∈ Finset.range n, freq (sNode c) + ∑ k ∈ Finset.Ico 1 n, freq (parent (2 * k)) := by
    rw [hU, Finset.sum_union hD, Finset.sum_image, Finset.sum_image]
    · intro k hk k' hk' e
      simp only [Finset.coe_Ico, Set.mem_Ico] at hk hk'
      have a := (oI k hk.1 hk.2).2
      have b := (oI k' hk'.1 hk'.2).2
      simp only [] at e
      rw [e] at a
      omega
    · intro c hc c' hc' e
      simp only [Finset.coe_range, Set.mem_Iio] at hc hc'
      have a := (oL c hc).2
      have b := (oL c' hc').2
      rw [e] at a
      omega
  have e2 : ∑ k ∈ Finset.Ico 1 n, freq (parent (2 * k)) = ∑ k ∈ Finset.Ico 1 n, (freq (2 * k) + freq (2 * k - 1)) := by
    apply Finset.sum_congr rfl
    intro k hk
    rw [Finset.mem_Ico] at hk
    have o := oI k hk.1 hk.2
    have := W.sum _ k o.1 hk.1 hk.2 o.2
    omega
  have e3 := pairs_sum freq (n - 1)
  rw [show 2 * (n - 1) + 1 = 2 * n - 1 from by omega, Nat.sub_add_cancel (by omega)] at e3
  omega

theorem RL.start {st : Nat → Nat} {av : Nat} (B : BlockF N block edge st av f0) : RL N 0 0 c0 f0 block edge c0 f0 st av where
  ji := Nat.le_refl _
  rest := fun _ _ => ⟨rfl, rfl⟩
  kept := by intros; omega
  mono := by intros; omega
  all := by intros; omega
  inj := by intros; omega
  cnt := by have := B.cnt; simp only [leads]; omega
  free := fun a h1 h2 => ⟨(B.free a h1 h2).1, (B.free a h1 h2).2.1, fun x hx _ => (B.free a h1 h2).2.2 x hx⟩
  sinj := B.inj
  ordr := by intros; omega

/-- All leaves have been kept. -/
theorem RL.finish {n j : Nat} {c0 f0 parent sNode block edge child freq stock : Nat → Nat} {avail : Nat} (hn1 : 2 ≤ n) (hn : n ≤ 314)
    (T : TreeF n c0 parent sNode) (W : WeightF n 0 c0 f0)
    (h : RL (2 * n - 1) (2 * n - 1) j c0 f0 block edge child freq stock avail) :
    j = n ∧ Leaves n child freq ∧
      ∑ a ∈ Finset.range n, freq a = ∑ c ∈ Finset.range n, (f0 (sNode c) + 1) / 2 ∧
      (∀ a, a < n → freq a = (f0 (sNode (65535 - child a)) + 1) / 2) ∧ (∀ c, c < n → ∃ a, a < n ∧ child a = 65535 - c) := by
  have key : ∀ a, a < j → 32768 ≤ child a ∧ child a ≤ 65535 ∧ 65535 - child a < n ∧ freq a = (f0 (sNode (65535 - child a)) + 1) / 2 ∧
      1 ≤ freq a := by
    intro a ha
    obtain ⟨x, x1, x2, x3, x4⟩ := h.kept a ha
    obtain ⟨v, o⟩ := T.node x x1
    have v' := v.lt hn
    have p := W.pos x x1
    rw [x3]
    unfold ownF at o
    rw [if_pos x2] at o
    refine ⟨x2, by omega, by omega, by rw [x4, o], by omega⟩
  have all : ∀ c, c < n → ∃ a, a < j ∧ child a = 65535 - c := by
    intro c hc
    have o := T.owner (65535 - c) (Or.inl ⟨c, hc, rfl⟩)
    obtain ⟨a, a1, a2⟩ := h.all _ o.1 (by rw [o.2]; omega)
    exact ⟨a, a1, by rw [a2, o.2]⟩
  have hI : (Finset.range j).image (fun a => 65535 - child a) = Finset.range n := by
    ext c
    simp only [Finset.mem_range, Finset.mem_image]
    constructor
    · rintro ⟨a, a1, rfl⟩
      exact (key a a1).2.2.1
    · intro hc
      obtain ⟨a, a1, a2⟩ := all c hc
      exact ⟨a, a1, by rw [a2]; omega⟩
  have hJ : Set.InjOn (fun a => 65535 - child a) (Finset.range j : Set Nat) := by
    intro a ha b hb e
    simp only [Finset.coe_range, Set.mem_Iio] at ha hb
    simp only [] at e
    have ka := key a ha
    have kb := key b hb
    exact h.inj a b ha hb (by omega)
  have hj : j = n := by
    have := Finset.card_image_of_injOn hJ
    rw [hI, Finset.card_range, Finset.card_range] at this
    exact this.symm
  subst hj
  refine ⟨rfl, ⟨fun a ha => ?_, h.inj, h.mono, fun a ha => (key a ha).2.2.2.2⟩, ?_, fun a ha => (key a ha).2.2.2.1, all⟩
  · have := key a ha
    exact ⟨this.1, this.2.1, this.2.2.1⟩
  · rw [show (∑ c ∈ Finset.range j, (f0 (sNode c) + 1) / 2) = ∑ c ∈ (Finset.range j).image (fun a => 65535 - child a), (f0 (sNode c) + 1) / 2
      from by rw [hI], Finset.sum_image hJ]
    apply Finset.sum_congr rfl
    intro a ha
    rw [Finset.mem_range] at ha
    exact (key a ha).2.2.2.1

theorem half_sum (w : Nat → Nat) (n : Nat) : 2 * ∑ c ∈ Finset.range n, (w c + 1) / 2 ≤ ∑ c ∈ Finset.range n, w c + n := by
  induction n with
  | zero => simp
  | succ n ih => rw [Finset.sum_range_succ, Finset.sum_range_succ]; omega

/-- The order of the nodes after rebuilding: leaves as before, inner nodes in the order of their children and before leaves of the
same weight. -/
structure OrdF (n : Nat) (sNode child freq : Nat → Nat) : Prop where
  leaf : ∀ x y c d, x < 2 * n - 1 → y < 2 * n - 1 → c < n → d < n → child x = 65535 - c → child y = 65535 - d → sNode c < sNode d → x < y
  pair : ∀ x y k l, x < 2 * n - 1 → y < 2 * n - 1 → k < n → l < n → child x = 2 * k → child y = 2 * l → k < l → x < y
  tie : ∀ x y, x < y → y < 2 * n - 1 → 32768 ≤ child x → child y < 32768 → freq y < freq x

/-- `reconst` rebuilds the tree for the halved weights. -/
theorem reconst_ok {n : Nat} {w : Nat → Nat} (hn1 : 2 ≤ n) (hn : n ≤ 314) {s : Dyn} (h : DynOk n w s) :
    ∃ s', reconst 0 (n * 2 - 1) s = .ok s' ∧ DynOk n (fun c => (w c + 1) / 2) s' ∧ s'.freq.get 0 < 32768 ∧ s'.n1 = s.n1 ∧
      OrdF n s.sNode.get s'.child.get s'.freq.get := by
  have T := h.inv.tree
  have W := h.inv.weight
  have B := h.inv.block
  have hcap := h.cap
  rw [Nat.mul_comm n 2]
  obtain ⟨j, s1, e1, z1, a1, a2, a3, a4, a5, a6, R⟩ := rcLeaves_ok B W.mono (by omega) (by omega) (fun x y hx hy e => T.inj hx hy e)
    (2 * n - 1) 0 0 s h.inv.sz (by omega) rfl rfl rfl rfl rfl rfl (RL.start B)
  obtain ⟨rfl, L, hsum, hwt, hall⟩ := R.finish hn1 hn T W
  have hs : ∑ c ∈ Finset.range j, (s.freq.get (s.sNode.get c) + 1) / 2 ≤ 16541 := by
    have q1 := half_sum (fun c => s.freq.get (s.sNode.get c)) j
    have q2 := tree_sum T hn1 hn W
    omega
  obtain ⟨ch, fr, e2, y1, y2, R2⟩ := rcBuild_ok hn1 hn L (W := ∑ c ∈ Finset.range j, (s.freq.get (s.sNode.get c) + 1) / 2) (by omega)
    (2 * j - 1 + 1) 0 j (2 * j - 1) s1
    (RB.start hn1 (fun a _ => ⟨rfl, rfl⟩) hsum) z1.child z1.freq (fun _ => rfl) (by omega) (by omega) (by omega)
  unfold reconst
  rw [Nat.sub_zero, e1, ok_bind]
  simp only []
  rw [rd_ok (by rw [z1.block]; omega), ok_bind]
  rw [Nat.sub_zero, show 2 * j - 3 = 2 * j - 1 - 2 from by omega] at e2
  rw [e2, ok_bind]
  have hkind := fun x (hx : x < 2 * j - 1) => R2.kind x (Nat.zero_le _) hx
  have hv : ∀ x, x < 2 * j - 1 → ValidF j (ch.get x) := by
    intro x hx
    rcases hkind x hx with ⟨a, _, a1, a2, _⟩ | ⟨k, k1, k2, k3, _⟩
    · have := L.big a a1
      exact Or.inl ⟨65535 - ch.get x, by rw [a2]; omega, by rw [a2]; omega⟩
    · exact Or.inr ⟨k, by omega, k2, k3⟩
  have hinj : ∀ x y, x < 2 * j - 1 → y < 2 * j - 1 → ch.get x = ch.get y → x = y :=
    fun x y hx hy e => R2.inj x y (Nat.zero_le _) hx (Nat.zero_le _) hy e
  have hmono : ∀ x y, x ≤ y → y < 2 * j - 1 → fr.get y ≤ fr.get x := fun x y a b => R2.sorted x y (Nat.zero_le _) a b
  have hpos : ∀ x, x < 2 * j - 1 → 1 ≤ fr.get x := by
    intro x hx
    have := hmono x (2 * j - 2) (by omega) (by omega)
    rcases hkind (2 * j - 2) (by omega) with ⟨a, _, a1, _, a3⟩ | ⟨k, k1, k2, k3, k4, _⟩
    · have := L.pos a a1; omega
    · omega
  have hav := R.cnt
  obtain ⟨s', e3, x1, c1, c2, c3, c4, own, pr, P, pad⟩ := rcLink_ok (s0 := { s1 with freq := fr, child := ch }) hn hv hinj hmono hpos (2 * j - 1)
    0 0 (s1.block.get (2 * j - 1 - 1)) { s1 with freq := fr, child := ch }
    ⟨y1, z1.parent, z1.block, z1.edge, z1.stock, z1.sNode, y2⟩ (by omega) rfl rfl rfl rfl rfl (by omega) (by intros; omega)
    (by simp only [a3]; exact fun k k1 k2 => (T.up k k1 k2).2)
    ⟨by intros; omega, by intros; omega, by intros; omega, by intros; omega, by intros; omega,
      fun a q1 q2 => ⟨(R.free a q1 q2).1, (R.free a q1 q2).2.1, by intros; omega⟩, R.sinj, by simp only [leads]; omega⟩
    (by simp only [a1]; exact B.pad)
  simp only [] at own c1 c2 c3 c4 P
  rw [e3]
  have hown : ∀ v, ValidF j v → ∃ x, x < 2 * j - 1 ∧ ch.get x = v := by
    rintro v (⟨c, q1, q2⟩ | ⟨k, q1, q2, q3⟩)
    · obtain ⟨a, b1, b2⟩ := hall c q1
      obtain ⟨x, _, b3, b4⟩ := R2.hasL a (by omega) b1
      exact ⟨x, b3, by rw [b4, b2, q2]⟩
    · obtain ⟨x, _, b3, b4⟩ := R2.hasI k (by omega) q2
      exact ⟨x, b3, by rw [b4, q3]⟩
  have T' : TreeF j s'.child.get s'.parent.get s'.sNode.get := by
    rw [c1]
    refine ⟨fun x hx => ⟨hv x hx, own x hx⟩, ?_, ?_⟩
    · intro v hvv
      obtain ⟨x, q1, q2⟩ := hown v hvv
      have := own x q1
      rw [q2] at this
      rw [this]
      exact ⟨q1, q2⟩
    · intro k k1 k2
      refine ⟨?_, pr k k1 k2⟩
      obtain ⟨x, q1, q2⟩ := hown (2 * k) (Or.inr ⟨k, k1, k2, rfl⟩)
      have := own x q1
      rw [q2] at this
      unfold ownF at this
      rw [if_neg (by omega)] at this
      rw [this]
      rcases hkind x q1 with ⟨a, _, b1, b2, _⟩ | ⟨k', b1, b2, b3, b4, _⟩
      · have := L.big a b1; omega
      · omega
  have W' : WeightF j 0 s'.child.get s'.freq.get := by
    rw [c1, c2]
    refine ⟨hmono, hpos, ?_⟩
    intro x k hx k1 k2 e
    rcases hkind x hx with ⟨a, _, b1, b2, _⟩ | ⟨k', b1, b2, b3, b4, b5⟩
    · have := L.big a b1; omega
    · have : k' = k := by omega
      subst this
      rw [b5]
  have hf0 : fr.get 0 ≤ 16541 := by
    have := R2.sum
    rw [show 2 * (j - (j - 1)) - 1 = 0 + 1 from by omega, Finset.sum_Ico_succ_top (by omega), Finset.Ico_self] at this
    simp only [Finset.sum_empty, Finset.range_zero, Nat.zero_add, Nat.add_zero] at this
    omega
  refine ⟨s', rfl, ⟨⟨x1, T', W', ?_, by rw [c2]; omega, ?_⟩, by rw [c3, a5, h.size], by rw [c2]; omega⟩, by rw [c2]; omega, by rw [c4, a6], ?_⟩
  · rw [c2]
    exact ⟨P.blk, P.same, P.edge_le, P.edge_eq, P.edge_lt, P.free, P.inj, P.cnt, pad⟩
  · intro c hc
    have o := T'.owner (65535 - c) (Or.inl ⟨c, hc, rfl⟩)
    unfold ownF at o
    rw [if_pos (by omega), show 65535 - (65535 - c) = c from by omega, c1] at o
    rw [c2]
    rcases hkind _ o.1 with ⟨a, _, b1, b2, b3⟩ | ⟨k', b1, b2, b3, b4, _⟩
    · rw [b3, hwt a b1]
      rw [← h.inv.leafw c hc]
      rw [o.2] at b2
      rw [← b2, show 65535 - (65535 - c) = c from by omega]
    · rw [o.2] at b3; omega
  · rw [c1, c2]
    refine ⟨?_, fun x y k l hx hy hk hl e1 e2 hkl => R2.ordI x y k l (Nat.zero_le _) hx (Nat.zero_le _) hy e1 e2 hk hl hkl,
      fun x y hxy hy e1 e2 => R2.tie x y (Nat.zero_le _) hxy hy e1 e2⟩
    intro x y c d hx hy hc hd e1 e2 hlt
    obtain ⟨a, b1, b2⟩ := hall c hc
    obtain ⟨a', b1', b2'⟩ := hall d hd
    have o1 := T.owner (65535 - c) (Or.inl ⟨c, hc, rfl⟩)
    have o2 := T.owner (65535 - d) (Or.inl ⟨d, hd, rfl⟩)
    unfold ownF at o1 o2
    rw [if_pos (by omega), show 65535 - (65535 - c) = c from by omega] at o1
    rw [if_pos (by omega), show 65535 - (65535 - d) = d from by omega] at o2
    refine R2.ordL x y a a' (Nat.zero_le _) hx (Nat.zero_le _) hy (by rw [e1, b2]) (by rw [e2, b2']) b1 b1' ?_
    by_contra g
    by_cases g' : a' = a
    · rw [g', b2] at b2'
      have : c = d := by omega
      rw [this] at hlt
      omega
    · have := R.ordr a' a _ _ (by omega) b1 o2.1 o1.1 (by rw [b2', o2.2]) (by rw [b2, o1.2])
      omega

end Lha
