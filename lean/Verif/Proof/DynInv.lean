import Verif.Basic
import Mathlib.Tactic.ByContra
/-!
# Invariants of the adaptive Huffman tree, as facts about functions

`N = 2 n - 1` nodes, number 0 the root; `child`, `parent`, `sNode`, `freq`, `block`, `edge`, `stock` are the arrays of
`/repo/dhuf.go` as functions.
-/

namespace Lha

/-- What `child` can hold: `^c` for a symbol `c`, or the number `2k` of the second node of a pair. -/
def ValidF (n v : Nat) : Prop := (∃ c, c < n ∧ v = 65535 - c) ∨ (∃ k, 1 ≤ k ∧ k < n ∧ v = 2 * k)

/-- The node that holds `v`. -/
def ownF (parent sNode : Nat → Nat) (v : Nat) : Nat := if 32768 ≤ v then sNode (65535 - v) else parent v

/-- The tree: every node is a leaf with its symbol or has the pair `2k-1, 2k` below it; every symbol has its leaf, every pair its
parent.  Parents have smaller numbers than their children. -/
structure TreeF (n : Nat) (child parent sNode : Nat → Nat) : Prop where
  node : ∀ i, i < 2 * n - 1 → ValidF n (child i) ∧ ownF parent sNode (child i) = i
  owner : ∀ v, ValidF n v → ownF parent sNode v < 2 * n - 1 ∧ child (ownF parent sNode v) = v
  up : ∀ k, 1 ≤ k → k < n → parent (2 * k) < 2 * k - 1 ∧ parent (2 * k - 1) = parent (2 * k)

theorem TreeF.inj {n : Nat} {child parent sNode : Nat → Nat} (T : TreeF n child parent sNode) {i j : Nat} (hi : i < 2 * n - 1)
    (hj : j < 2 * n - 1) (h : child i = child j) : i = j := by
  rw [← (T.node i hi).2, ← (T.node j hj).2, h]

/-- Exchange what two nodes hold. -/
theorem TreeF.swap {n : Nat} {child parent sNode child' parent' sNode' : Nat → Nat} {p q : Nat} (T : TreeF n child parent sNode)
    (hn : n ≤ 314) (hp : p < 2 * n - 1) (hqp : q < p)
    (hq : ∀ k, 1 ≤ k → k < n → child q = 2 * k → p < 2 * k - 1)
    (hc : ∀ i, child' i = if i = q then child p else if i = p then child q else child i)
    (ho : ∀ v, ValidF n v → ownF parent' sNode' v = if v = child q then p else if v = child p then q else ownF parent sNode v)
    (hpar : ∀ k, 1 ≤ k → k < n → parent' (2 * k - 1) = parent' (2 * k)) : TreeF n child' parent' sNode' := by
  have hne : child p ≠ child q := fun h => by have := T.inj hp (by omega) h; omega
  constructor
  · intro i hi
    rw [hc]
    split
    · refine ⟨(T.node p hp).1, ?_⟩
      rw [ho _ (T.node p hp).1, if_neg hne, if_pos rfl]
      omega
    · split
      · refine ⟨(T.node q (by omega)).1, ?_⟩
        rw [ho _ (T.node q (by omega)).1, if_pos rfl]
        omega
      · rename_i h1 h2
        refine ⟨(T.node i hi).1, ?_⟩
        rw [ho _ (T.node i hi).1, if_neg (fun h => h1 (T.inj hi (by omega) h)), if_neg (fun h => h2 (T.inj hi hp h)),
          (T.node i hi).2]
  · intro v hv
    rw [ho v hv, hc]
    split
    · rw [if_neg (by omega), if_pos rfl]
      refine ⟨hp, by omega⟩
    · rename_i h1
      split
      · rw [if_pos rfl]
        exact ⟨by omega, by omega⟩
      · rename_i h2
        obtain ⟨a, b⟩ := T.owner v hv
        rw [if_neg (fun h => by rw [h] at b; omega), if_neg (fun h => by rw [h] at b; omega)]
        exact ⟨a, b⟩
  · intro k hk1 hk2
    refine ⟨?_, hpar k hk1 hk2⟩
    have hv : ValidF n (2 * k) := Or.inr ⟨k, hk1, hk2, rfl⟩
    have e : ∀ pa sn : Nat → Nat, ownF pa sn (2 * k) = pa (2 * k) := fun pa sn => by
      unfold ownF; rw [if_neg (by omega)]
    have := ho (2 * k) hv
    rw [e, e] at this
    rw [this]
    split
    · rename_i h; exact hq k hk1 hk2 h.symm
    · split
      · rename_i h
        have h1 := (T.node p hp).2
        rw [← h, e] at h1
        have := (T.up k hk1 hk2).1
        omega
      · exact (T.up k hk1 hk2).1

/-- The weights: positive, not increasing with the node number; an inner node weighs as much as its children, except that the node
`d` lacks one and the root has one too many (nothing lacks when `d` is the root). -/
structure WeightF (n d : Nat) (child freq : Nat → Nat) : Prop where
  mono : ∀ i j, i ≤ j → j < 2 * n - 1 → freq j ≤ freq i
  pos : ∀ i, i < 2 * n - 1 → 1 ≤ freq i
  sum : ∀ i k, i < 2 * n - 1 → 1 ≤ k → k < n → child i = 2 * k →
    freq i + (if i = d then 1 else 0) = freq (2 * k) + freq (2 * k - 1) + (if i = 0 then 1 else 0)

/-- Number of places among `0 .. N-1` where a new weight begins. -/
def leads (f : Nat → Nat) : Nat → Nat
  | 0 => 0
  | i + 1 => leads f i + (if i = 0 ∨ f i ≠ f (i - 1) then 1 else 0)

theorem leads_le (f : Nat → Nat) (N : Nat) : leads f N ≤ N := by
  induction N with
  | zero => simp [leads]
  | succ N ih => rw [leads]; split <;> omega

theorem leads_pos (f : Nat → Nat) (N : Nat) (h : 1 ≤ N) : 1 ≤ leads f N := by
  induction N with
  | zero => omega
  | succ N ih =>
    rw [leads]
    by_cases h0 : N = 0
    · rw [if_pos (Or.inl h0)]; omega
    · have := ih (by omega); omega

theorem leads_lt (f : Nat → Nat) (N p : Nat) (hp : p + 1 < N) (he : f (p + 1) = f p) : leads f N < N := by
  induction N with
  | zero => omega
  | succ N ih =>
    rw [leads]
    by_cases h0 : p + 1 < N
    · have := ih h0; split <;> omega
    · have : N = p + 1 := by omega
      subst this
      have := leads_le f (p + 1)
      rw [if_neg (by rw [Nat.add_sub_cancel]; omega)]
      omega

theorem leads_congr (f g : Nat → Nat) (N : Nat) (h : ∀ i, i < N → f i = g i) : leads f N = leads g N := by
  induction N with
  | zero => rfl
  | succ N ih =>
    rw [leads, leads, ih (fun i hi => h i (by omega)), h N (by omega), h (N - 1) (by omega)]

theorem leads_inc (f g : Nat → Nat) (N p : Nat) (h1 : 1 ≤ p) (hp : p < N) (hg : ∀ i, g i = if i = p then f p + 1 else f i)
    (hl : f p < f (p - 1)) (hm : p + 1 < N → f (p + 1) ≤ f p) :
    leads g N + (if f p + 1 = f (p - 1) then 1 else 0) = leads f N + (if p + 1 < N ∧ f (p + 1) = f p then 1 else 0) := by
  induction N with
  | zero => omega
  | succ N ih =>
    rw [leads, leads]
    by_cases h0 : N = p
    · subst h0
      rw [leads_congr g f N (fun i hi => by rw [hg, if_neg (by omega)]), hg N, if_pos rfl, hg (N - 1), if_neg (by omega : ¬ N - 1 = N)]
      have e1 : (if N = 0 ∨ f N ≠ f (N - 1) then 1 else 0) = 1 := if_pos (by omega)
      have e2 : (if N + 1 < N + 1 ∧ f (N + 1) = f N then 1 else 0) = 0 := if_neg (by omega)
      rw [e1, e2]
      split <;> split <;> omega
    · by_cases h2 : N = p + 1
      · subst h2
        have e0 := ih (by omega) (fun h => by omega)
        have hm' := hm (by omega)
        have g1 : g (p + 1) = f (p + 1) := by rw [hg]; exact if_neg (by omega)
        have g2 : g p = f p + 1 := by rw [hg]; exact if_pos rfl
        rw [Nat.add_sub_cancel, g1, g2]
        have e1 : (if p + 1 < p + 1 ∧ f (p + 1) = f p then 1 else 0) = 0 := if_neg (by omega)
        rw [e1] at e0
        have e2 : (if p + 1 = 0 ∨ f (p + 1) ≠ f p + 1 then 1 else 0) = 1 := if_pos (by omega)
        rw [e2]
        by_cases h3 : f (p + 1) = f p
        · rw [if_neg (by omega : ¬ (p + 1 = 0 ∨ f (p + 1) ≠ f p)), if_pos (by omega : p + 1 < p + 1 + 1 ∧ f (p + 1) = f p)]
          omega
        · rw [if_pos (by omega : p + 1 = 0 ∨ f (p + 1) ≠ f p), if_neg (by omega : ¬ (p + 1 < p + 1 + 1 ∧ f (p + 1) = f p))]
          omega
      · have e0 := ih (by omega) (fun h => hm (by omega))
        have g1 : g N = f N := by rw [hg]; exact if_neg h0
        have g2 : g (N - 1) = f (N - 1) := by rw [hg]; exact if_neg (by omega)
        rw [g1, g2]
        have : (p + 1 < N + 1 ∧ f (p + 1) = f p) ↔ (p + 1 < N ∧ f (p + 1) = f p) := by omega
        simp only [this]
        omega

/-- The blocks of equal weight: nodes of equal weight share a block, `edge` of a block is its first node; the numbers on the stock
from `avail` on are free.  There may be more numbers in use than there are blocks here. -/
structure BlockF (N : Nat) (block edge stock : Nat → Nat) (avail : Nat) (freq : Nat → Nat) : Prop where
  blk : ∀ i, i < N → 1 ≤ block i ∧ block i < 884
  same : ∀ i j, i < N → j < N → freq i = freq j → block i = block j
  edge_le : ∀ i, i < N → edge (block i) ≤ i
  edge_eq : ∀ i, i < N → freq (edge (block i)) = freq i
  edge_lt : ∀ i j, i < N → j < edge (block i) → freq i < freq j
  free : ∀ a, avail ≤ a → a < 628 → 1 ≤ stock a ∧ stock a < 884 ∧ ∀ i, i < N → block i ≠ stock a
  inj : ∀ a a', avail ≤ a → a < 628 → avail ≤ a' → a' < 628 → stock a = stock a' → a = a'
  cnt : 1 + leads freq N ≤ avail ∧ avail + N ≤ 628 + leads freq N
  pad : block N = 0

theorem BlockF.sep {N : Nat} {block edge stock : Nat → Nat} {avail : Nat} {freq : Nat → Nat}
    (B : BlockF N block edge stock avail freq) {i j : Nat} (hi : i < N) (hj : j < N) (h : block i = block j) : freq i = freq j := by
  rw [← B.edge_eq i hi, ← B.edge_eq j hj, h]

/-- A leader that has company leaves its block for the one before it. -/
theorem BlockF.join {N : Nat} {block edge stock freq block' edge' freq' : Nat → Nat} {avail p : Nat}
    (B : BlockF N block edge stock avail freq) (hmono : ∀ i j, i ≤ j → j < N → freq j ≤ freq i)
    (h1 : 1 ≤ p) (hp : p + 1 < N) (hl : edge (block p) = p) (hc : freq (p + 1) = freq p)
    (hf : ∀ i, freq' i = if i = p then freq p + 1 else freq i)
    (he : ∀ i, edge' i = if i = block p then p + 1 else edge i)
    (hb : ∀ i, block' i = if i = p then block (p - 1) else block i)
    (hj : freq p + 1 = freq (p - 1)) : BlockF N block' edge' stock avail freq' := by
  have hlt : freq p < freq (p - 1) := B.edge_lt p (p - 1) (by omega) (by omega)
  have hne : ∀ i, i < N → (block i = block p ↔ freq i = freq p) :=
    fun i hi => ⟨B.sep hi (by omega), B.same i p hi (by omega)⟩
  have hge : ∀ i, i < N → freq i = freq p → p ≤ i := by
    intro i hi hfi
    by_contra hc
    have := B.edge_lt p i (by omega) (by omega)
    omega
  constructor
  · intro i hi
    rw [hb]; split
    · exact B.blk _ (by omega)
    · exact B.blk _ hi
  · intro i j hi hj'
    rw [hf, hf, hb, hb]
    split <;> split
    · intro _; rfl
    · intro h; exact B.same _ _ (by omega) hj' (by omega)
    · intro h; exact B.same _ _ hi (by omega) (by omega)
    · intro h; exact B.same _ _ hi hj' h
  · intro i hi
    rw [hb, he]
    split
    · rw [if_neg (by rw [hne _ (by omega)]; omega)]
      have := B.edge_le (p - 1) (by omega)
      omega
    · split
      · rename_i h2 h3
        have := hge i hi ((hne i hi).mp h3)
        omega
      · exact B.edge_le i hi
  · intro i hi
    rw [hb, he, hf i]
    split
    · rw [if_neg (by rw [hne _ (by omega)]; omega), hf]
      have := B.edge_le (p - 1) (by omega)
      rw [if_neg (by omega), B.edge_eq _ (by omega), hj]
    · split
      · rename_i h2 h3
        rw [hf, if_neg (by omega), hc, ← (hne i hi).mp h3]
      · rename_i h2 h3
        rw [hf, if_neg, B.edge_eq i hi]
        intro h4
        have := B.edge_eq i hi
        rw [h4] at this
        exact h3 ((hne i hi).mpr this.symm)
  · intro i j hi
    rw [hb, he, hf i, hf j]
    split
    · rw [if_neg (by rw [hne _ (by omega)]; omega)]
      intro h
      have := B.edge_le (p - 1) (by omega)
      have := B.edge_lt (p - 1) j (by omega) h
      split <;> omega
    · split
      · rename_i h2 h3
        have e := (hne i hi).mp h3
        intro h
        split
        · omega
        · rw [e]; exact B.edge_lt p j (by omega) (by omega)
      · intro h
        have := B.edge_lt i j hi h
        split
        · subst_vars; omega
        · omega
  · intro a h1 h2
    obtain ⟨x, y, z⟩ := B.free a h1 h2
    refine ⟨x, y, fun i hi => ?_⟩
    rw [hb]; split
    · exact z _ (by omega)
    · exact z _ hi
  · exact B.inj
  · have := leads_inc freq freq' N p h1 (by omega) hf hlt (fun h => hmono _ _ (by omega) h)
    rw [if_pos hj, if_pos ⟨by omega, hc⟩] at this
    have := B.cnt
    omega
  · rw [hb, if_neg (by omega), B.pad]

/-- A leader that has company gets a block of its own. -/
theorem BlockF.fresh {N : Nat} {block edge stock freq block' edge' freq' : Nat → Nat} {avail p : Nat}
    (B : BlockF N block edge stock avail freq) (hmono : ∀ i j, i ≤ j → j < N → freq j ≤ freq i) (hN : N ≤ 627)
    (h1 : 1 ≤ p) (hp : p + 1 < N) (hl : edge (block p) = p) (hc : freq (p + 1) = freq p)
    (hf : ∀ i, freq' i = if i = p then freq p + 1 else freq i)
    (he : ∀ i, edge' i = if i = stock avail then p else if i = block p then p + 1 else edge i)
    (hb : ∀ i, block' i = if i = p then stock avail else block i)
    (hj : freq p + 1 ≠ freq (p - 1)) : avail < 628 ∧ BlockF N block' edge' stock (avail + 1) freq' := by
  have hav : avail < 628 := by
    have := leads_lt freq N p hp hc
    have := B.cnt
    omega
  refine ⟨hav, ?_⟩
  obtain ⟨s1, s2, s3⟩ := B.free avail (Nat.le_refl _) hav
  have hlt : freq p < freq (p - 1) := B.edge_lt p (p - 1) (by omega) (by omega)
  have hne : ∀ i, i < N → (block i = block p ↔ freq i = freq p) :=
    fun i hi => ⟨B.sep hi (by omega), B.same i p hi (by omega)⟩
  have hge : ∀ i, i < N → freq i = freq p → p ≤ i := by
    intro i hi hfi
    by_contra hc
    have := B.edge_lt p i (by omega) (by omega)
    omega
  have hno : ∀ i, i < N → i ≠ p → freq i ≠ freq p + 1 := by
    intro i hi hip he
    by_cases h : i < p
    · have := hmono i (p - 1) (by omega) (by omega)
      omega
    · have := hmono p i (by omega) hi
      omega
  constructor
  · intro i hi
    rw [hb]; split
    · exact ⟨s1, s2⟩
    · exact B.blk _ hi
  · intro i j hi hj'
    rw [hf, hf, hb, hb]
    split <;> split
    · intro _; rfl
    · rename_i h2 h3
      intro h; exact absurd h.symm (hno j hj' h3)
    · rename_i h2 h3
      intro h; exact absurd h (hno i hi h2)
    · intro h; exact B.same _ _ hi hj' h
  · intro i hi
    rw [hb, he]
    split
    · rw [if_pos rfl]; omega
    · rw [if_neg (s3 i hi)]
      split
      · rename_i h2 h3
        have := hge i hi ((hne i hi).mp h3)
        omega
      · exact B.edge_le i hi
  · intro i hi
    rw [hb, he, hf i]
    split
    · rw [if_pos rfl, hf, if_pos rfl]
    · rw [if_neg (s3 i hi)]
      split
      · rename_i h2 h3
        rw [hf, if_neg (by omega), hc, ← (hne i hi).mp h3]
      · rename_i h2 h3
        rw [hf, if_neg, B.edge_eq i hi]
        intro h4
        have := B.edge_eq i hi
        rw [h4] at this
        exact h3 ((hne i hi).mpr this.symm)
  · intro i j hi
    rw [hb, he, hf i, hf j]
    split
    · rw [if_pos rfl]
      intro h
      have := hmono j (p - 1) (by omega) (by omega)
      rw [if_neg (by omega)]
      omega
    · rw [if_neg (s3 i hi)]
      split
      · rename_i h2 h3
        have e := (hne i hi).mp h3
        intro h
        split
        · omega
        · rw [e]; exact B.edge_lt p j (by omega) (by omega)
      · intro h
        have := B.edge_lt i j hi h
        split
        · subst_vars; omega
        · omega
  · intro a h1 h2
    obtain ⟨x, y, z⟩ := B.free a (by omega) h2
    refine ⟨x, y, fun i hi => ?_⟩
    rw [hb]; split
    · intro h
      have := B.inj avail a (by omega) (by omega) (by omega) h2 h
      omega
    · exact z _ hi
  · intro a a' h1 h2 h3 h4
    exact B.inj a a' (by omega) h2 (by omega) h4
  · have := leads_inc freq freq' N p h1 (by omega) hf hlt (fun h => hmono _ _ (by omega) h)
    rw [if_neg hj, if_pos ⟨by omega, hc⟩] at this
    have := B.cnt
    omega
  · rw [hb, if_neg (by omega), B.pad]

/-- A lone node joins the block before it; its own number goes back to the stock. -/
theorem BlockF.merge {N : Nat} {block edge stock freq block' stock' freq' : Nat → Nat} {avail p : Nat}
    (B : BlockF N block edge stock avail freq) (hmono : ∀ i j, i ≤ j → j < N → freq j ≤ freq i)
    (h1 : 1 ≤ p) (hp : p < N) (hl : edge (block p) = p) (hc : p + 1 < N → freq (p + 1) ≠ freq p)
    (hf : ∀ i, freq' i = if i = p then freq p + 1 else freq i)
    (hs : ∀ i, stock' i = if i = avail - 1 then block p else stock i)
    (hb : ∀ i, block' i = if i = p then block (p - 1) else block i)
    (hj : freq p + 1 = freq (p - 1)) : 1 ≤ avail ∧ BlockF N block' edge stock' (avail - 1) freq' := by
  have hav := B.cnt
  refine ⟨by omega, ?_⟩
  have hlt : freq p < freq (p - 1) := B.edge_lt p (p - 1) (by omega) (by omega)
  have hlone : ∀ i, i < N → i ≠ p → freq i ≠ freq p := by
    intro i hi hip he
    by_cases h : i < p
    · have := hmono i (p - 1) (by omega) (by omega)
      omega
    · have := hmono (p + 1) i (by omega) hi
      have := hmono p (p + 1) (by omega) (by omega)
      exact hc (by omega) (by omega)
  have hne : ∀ i, i < N → i ≠ p → block i ≠ block p := fun i hi hip h => hlone i hi hip (B.sep hi hp h)
  constructor
  · intro i hi
    rw [hb]; split
    · exact B.blk _ (by omega)
    · exact B.blk _ hi
  · intro i j hi hj'
    rw [hf, hf, hb, hb]
    split <;> split
    · intro _; rfl
    · intro h; exact B.same _ _ (by omega) hj' (by omega)
    · intro h; exact B.same _ _ hi (by omega) (by omega)
    · intro h; exact B.same _ _ hi hj' h
  · intro i hi
    rw [hb]
    split
    · have := B.edge_le (p - 1) (by omega)
      omega
    · exact B.edge_le i hi
  · intro i hi
    rw [hb, hf i]
    split
    · have := B.edge_le (p - 1) (by omega)
      rw [hf, if_neg (by omega), B.edge_eq _ (by omega), hj]
    · rename_i h2
      rw [hf, if_neg, B.edge_eq i hi]
      intro h4
      have := B.edge_eq i hi
      rw [h4] at this
      exact hlone i hi h2 this.symm
  · intro i j hi
    rw [hb, hf i, hf j]
    split
    · intro h
      have := B.edge_le (p - 1) (by omega)
      have := B.edge_lt (p - 1) j (by omega) h
      split <;> omega
    · intro h
      have := B.edge_lt i j hi h
      split
      · subst_vars; omega
      · omega
  · intro a h2 h3
    rw [hs]
    split
    · refine ⟨(B.blk p hp).1, (B.blk p hp).2, fun i hi => ?_⟩
      rw [hb]; split
      · exact hne _ (by omega) (by omega)
      · rename_i h5; exact hne i hi h5
    · obtain ⟨x, y, z⟩ := B.free a (by omega) h3
      refine ⟨x, y, fun i hi => ?_⟩
      rw [hb]; split
      · exact z _ (by omega)
      · exact z _ hi
  · intro a a' h2 h3 h4 h5
    rw [hs, hs]
    split <;> split
    · omega
    · intro h; exact absurd h ((B.free a' (by omega) h5).2.2 p hp)
    · intro h; exact absurd h.symm ((B.free a (by omega) h3).2.2 p hp)
    · exact B.inj a a' (by omega) h3 (by omega) h5
  · have := leads_inc freq freq' N p h1 (by omega) hf hlt (fun h => hmono _ _ (by omega) h)
    rw [if_pos hj, if_neg (by intro h; exact hc h.1 h.2)] at this
    omega
  · rw [hb, if_neg (by omega), B.pad]

/-- A lone node keeps its block. -/
theorem BlockF.stay {N : Nat} {block edge stock freq freq' : Nat → Nat} {avail p : Nat}
    (B : BlockF N block edge stock avail freq) (hmono : ∀ i j, i ≤ j → j < N → freq j ≤ freq i)
    (h1 : 1 ≤ p) (hp : p < N) (hl : edge (block p) = p) (hc : p + 1 < N → freq (p + 1) ≠ freq p)
    (hf : ∀ i, freq' i = if i = p then freq p + 1 else freq i)
    (hj : freq p + 1 ≠ freq (p - 1)) : BlockF N block edge stock avail freq' := by
  have hlt : freq p < freq (p - 1) := B.edge_lt p (p - 1) (by omega) (by omega)
  have hlone : ∀ i, i < N → i ≠ p → freq i ≠ freq p := by
    intro i hi hip he
    by_cases h : i < p
    · have := hmono i (p - 1) (by omega) (by omega)
      omega
    · have := hmono (p + 1) i (by omega) hi
      have := hmono p (p + 1) (by omega) (by omega)
      exact hc (by omega) (by omega)
  have hno : ∀ i, i < N → i ≠ p → freq i ≠ freq p + 1 := by
    intro i hi hip he
    by_cases h : i < p
    · have := hmono i (p - 1) (by omega) (by omega)
      omega
    · have := hmono p i (by omega) hi
      omega
  constructor
  · exact B.blk
  · intro i j hi hj'
    rw [hf, hf]
    split <;> split
    · intro _; subst_vars; rfl
    · rename_i h2 h3
      intro h; exact absurd h.symm (hno j hj' h3)
    · rename_i h2 h3
      intro h; exact absurd h (hno i hi h2)
    · exact B.same i j hi hj'
  · exact B.edge_le
  · intro i hi
    rw [hf i]
    split
    · subst_vars; rw [hl, hf, if_pos rfl]
    · rename_i h2
      rw [hf, if_neg, B.edge_eq i hi]
      intro h4
      have := B.edge_eq i hi
      rw [h4] at this
      exact hlone i hi h2 this.symm
  · intro i j hi h
    have := B.edge_lt i j hi h
    rw [hf i, hf j]
    split
    · subst_vars
      rw [hl] at h
      rw [if_neg (by omega)]
      have := hmono j (i - 1) (by omega) (by omega)
      omega
    · split
      · subst_vars; omega
      · omega
  · exact B.free
  · exact B.inj
  · have := leads_inc freq freq' N p h1 (by omega) hf hlt (fun h => hmono _ _ (by omega) h)
    rw [if_neg hj, if_neg (by intro h; exact hc h.1 h.2)] at this
    have := B.cnt
    omega
  · exact B.pad

theorem WeightF.swap {n : Nat} {child freq child' : Nat → Nat} {p q : Nat} (W : WeightF n p child freq)
    (hp : p < 2 * n - 1) (hqp : q < p) (h0 : q ≠ 0) (he : freq q = freq p)
    (hc : ∀ i, child' i = if i = q then child p else if i = p then child q else child i) : WeightF n q child' freq := by
  refine ⟨W.mono, W.pos, ?_⟩
  intro i k hi hk1 hk2
  rw [hc]
  split
  · intro h
    have := W.sum p k hp hk1 hk2 h
    subst_vars
    rw [if_pos rfl, if_neg (by omega)] at this
    rw [if_neg h0]
    omega
  · rename_i h1
    split
    · intro h
      have := W.sum q k (by omega) hk1 hk2 h
      rw [if_neg (by omega), if_neg h0] at this
      rw [if_neg (by omega)]
      subst_vars
      omega
    · rename_i h2
      intro h
      have := W.sum i k hi hk1 hk2 h
      rw [if_neg h2] at this
      exact this

/-- Counting up a leader: what lacks now is one at its parent. -/
theorem WeightF.inc {n : Nat} {child parent sNode freq freq' : Nat → Nat} {p : Nat} (T : TreeF n child parent sNode)
    (hn : n ≤ 314) (W : WeightF n p child freq) (hp : p < 2 * n - 1) (h1 : 1 ≤ p) (hl : freq p < freq (p - 1))
    (hf : ∀ i, freq' i = if i = p then freq p + 1 else freq i) : WeightF n (parent p) child freq' := by
  constructor
  · intro i j hij hj
    rw [hf, hf]
    split
    · split
      · omega
      · have := W.mono i (p - 1) (by omega) (by omega)
        omega
    · split
      · have := W.mono i j hij hj
        subst_vars
        omega
      · exact W.mono i j hij hj
  · intro i hi
    rw [hf]; split
    · omega
    · exact W.pos i hi
  · intro i k hi hk1 hk2 h
    have hs := W.sum i k hi hk1 hk2 h
    have e : ∀ k, k < n → ownF parent sNode (2 * k) = parent (2 * k) := fun k hk => by
      unfold ownF; rw [if_neg (by omega)]
    obtain ⟨k', c1, c2⟩ : ∃ k', k' < n ∧ (p = 2 * k' ∨ p = 2 * k' - 1 ∧ 1 ≤ k') := ⟨(p + 1) / 2, by omega, by omega⟩
    have c0 : 1 ≤ k' := by omega
    have hpp : parent p = parent (2 * k') := by
      rcases c2 with c2 | c2
      · rw [c2]
      · rw [c2.1, (T.up k' c0 c1).2]
    have hx := (T.owner (2 * k') (Or.inr ⟨k', c0, c1, rfl⟩)).2
    rw [e k' c1, ← hpp] at hx
    have hown := (T.node i hi).2
    rw [h, e k hk2] at hown
    have hup := T.up k hk1 hk2
    by_cases hk : k = k'
    · subst hk
      rw [if_pos (by omega : i = parent p), hf i, if_neg (by omega : ¬ i = p)]
      have hne : ¬ i = p := by omega
      rw [if_neg hne] at hs
      rcases c2 with c2 | c2
      · have g1 : freq' (2 * k) = freq (2 * k) + 1 := by rw [hf, if_pos c2.symm, c2]
        have g2 : freq' (2 * k - 1) = freq (2 * k - 1) := by rw [hf, if_neg (by omega)]
        omega
      · have g1 : freq' (2 * k) = freq (2 * k) := by rw [hf, if_neg (by omega)]
        have g2 : freq' (2 * k - 1) = freq (2 * k - 1) + 1 := by rw [hf, if_pos c2.1.symm, c2.1]
        omega
    · have g1 : freq' (2 * k) = freq (2 * k) := by rw [hf, if_neg (by omega)]
      have g2 : freq' (2 * k - 1) = freq (2 * k - 1) := by rw [hf, if_neg (by omega)]
      have hnx : ¬ i = parent p := by
        intro h2
        rw [← h2] at hx
        omega
      rw [if_neg hnx, g1, g2, hf i]
      by_cases hip : i = p
      · rw [if_pos hip]
        rw [if_pos hip] at hs
        subst hip
        exact hs
      · rw [if_neg hip]
        rw [if_neg hip] at hs
        exact hs

end Lha
