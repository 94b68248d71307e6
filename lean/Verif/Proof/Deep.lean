import Verif.Proof.DynRun
/-!
# A tree with a code word of more than sixteen bits
-/

namespace Lha

open Spec

variable {n : Nat} {child parent sNode freq : Nat → Nat}

/-- The pair of nodes to which a node that is no leaf leads. -/
theorem TreeF.pair (T : TreeF n child parent sNode) (hn : n ≤ 314) {x : Nat} (hx : x < 2 * n - 1) (h2 : child x < 884) :
    ∃ k, 1 ≤ k ∧ k < n ∧ child x = 2 * k ∧ x < 2 * k - 1 := by
  obtain ⟨v, ow⟩ := T.node x hx
  rcases v with ⟨c, a, b⟩ | ⟨k, k1, k2, k3⟩
  · omega
  · unfold ownF at ow
    rw [if_neg (by omega), k3] at ow
    have := (T.up k k1 k2).1
    exact ⟨k, k1, k2, k3, by omega⟩

theorem Down.le (T : TreeF n child parent sNode) (hn : n ≤ 314) {x y : Nat} {bs : List Bool} (h : Down child x bs y) (hx : x < 2 * n - 1) :
    x + bs.length ≤ y ∧ y < 2 * n - 1 := by
  induction h with
  | nil x => exact ⟨by simp, hx⟩
  | cons x b bs y c1 c2 _ ih =>
    obtain ⟨k, k1, k2, k3, k4⟩ := T.pair hn hx c2
    have hb : b.toNat ≤ 1 := Bool.toNat_le b
    rw [k3] at ih
    have := ih (by omega)
    simp only [List.length_cons]
    omega

theorem Down.trans {x y z : Nat} {bs cs : List Bool} (h : Down child x bs y) (g : Down child y cs z) : Down child x (bs ++ cs) z := by
  induction h with
  | nil x => exact g
  | cons x b bs y c1 c2 _ ih => exact .cons _ _ _ _ c1 c2 (ih g)

theorem Down.split {x z : Nat} (bs : List Bool) {cs : List Bool} (h : Down child x (bs ++ cs) z) : ∃ y, Down child x bs y ∧ Down child y cs z := by
  induction bs generalizing x with
  | nil => exact ⟨x, .nil x, h⟩
  | cons b bs ih =>
    cases h with
    | cons _ _ _ _ c1 c2 h =>
      obtain ⟨y, y1, y2⟩ := ih h
      exact ⟨y, .cons _ _ _ _ c1 c2 y1, y2⟩

/-- A node below `v` that outweighs what is left beside it is one of the two nodes under `v`. -/
theorem forced (T : TreeF n child parent sNode) (W : WeightF n 0 child freq) (hn : n ≤ 314) {v p q : Nat} {bs : List Bool}
    (hv : v < 2 * n - 1) (D : Down child v bs p) (h0 : bs ≠ []) (hq : q < 2 * n - 1) (hqp : freq q < freq p)
    (hs : freq v < 2 * freq p + freq q) : ∃ b, bs = [b] := by
  cases D with
  | nil => exact absurd rfl h0
  | cons _ b bs _ c1 c2 D =>
    cases D with
    | nil => exact ⟨b, rfl⟩
    | cons _ b' bs _ d1 d2 D =>
      exfalso
      obtain ⟨k, k1, k2, k3, k4⟩ := T.pair hn hv c2
      rw [k3] at d1 d2 D
      have hb : b.toNat ≤ 1 := Bool.toNat_le b
      have hb' : b'.toNat ≤ 1 := Bool.toNat_le b'
      obtain ⟨l, l1, l2, l3, l4⟩ := T.pair hn (x := 2 * k - b.toNat) (by omega) d2
      rw [l3] at D
      obtain ⟨p1, p2⟩ := D.le T hn (by omega)
      have s1 := W.sum v k hv k1 k2 k3
      have s2 := W.sum (2 * k - b.toNat) l (by omega) l1 l2 l3
      have hx0 : 2 * k - b.toNat ≠ 0 := by omega
      rw [if_neg hx0] at s2
      have m1 : freq p ≤ freq (2 * l - b'.toNat) := W.mono _ _ (by omega) p2
      have hqi : 2 * l - b'.toNat < q := by
        by_contra g
        have := W.mono q (2 * l - b'.toNat) (by omega) (by omega)
        omega
      have m2 : freq q ≤ freq (2 * l) ∧ freq q ≤ freq (2 * l - 1) := ⟨W.mono _ _ (by omega) hq, W.mono _ _ (by omega) hq⟩
      have m3 : freq p ≤ freq (2 * k) ∧ freq p ≤ freq (2 * k - 1) := ⟨W.mono _ _ (by omega) p2, W.mono _ _ (by omega) p2⟩
      have e1 : freq v = freq (2 * k) + freq (2 * k - 1) := by split at s1 <;> omega
      cases b <;> cases b' <;> simp only [Bool.toNat_false, Bool.toNat_true, Nat.sub_zero] at * <;> omega

/-- Symbols whose weights fall so fast that each hangs beside all the lighter ones. -/
def Fits : List Nat → Nat → Prop
  | [], _ => True
  | A :: L, S => S < 2 * A + L.headD 1 ∧ L.headD 1 < A ∧ (∀ x ∈ L, x < S - A) ∧ Fits L (S - A)

instance : ∀ L S, Decidable (Fits L S)
  | [], _ => isTrue trivial
  | A :: L, S =>
    have := instDecidableFits L (S - A)
    inferInstanceAs (Decidable (S < 2 * A + L.headD 1 ∧ L.headD 1 < A ∧ (∀ x ∈ L, x < S - A) ∧ Fits L (S - A)))

/-- What is left of the total. -/
def left : List Nat → Nat → Nat
  | [], S => S
  | A :: L, S => left L (S - A)

/-- Below such symbols there is a node with the weight that is left. -/
theorem chain_down {w : Nat → Nat} {s : Dyn} (hn : n ≤ 314) (h : DynInv n 0 w s) {u : Nat} (hu : u < n) (hw : w u = 1) (L : List Nat) :
    ∀ v, v < 2 * n - 1 → L.Nodup → (∀ c ∈ L, c < n ∧ ∃ bs, bs ≠ [] ∧ Down s.child.get v bs (s.sNode.get c)) →
    Fits (L.map w) (s.freq.get v) →
    ∃ z P, Down s.child.get v P z ∧ P.length = L.length ∧ s.freq.get z = left (L.map w) (s.freq.get v) := by
  induction L with
  | nil => intro v _ _ _ _; exact ⟨v, [], .nil v, rfl, rfl⟩
  | cons a L ih =>
    intro v hv hnd hL hF
    obtain ⟨f1, f2, f3, f4⟩ := hF
    obtain ⟨ha, bs, b1, b2⟩ := hL a List.mem_cons_self
    have T := h.tree
    have W := h.weight
    have wa := h.leafw a ha
    obtain ⟨q, hq, wq⟩ : ∃ q, q < 2 * n - 1 ∧ s.freq.get q = (L.map w).headD 1 := by
      cases L with
      | nil => exact ⟨s.sNode.get u, (sNode_at h hn hu).1, by rw [h.leafw u hu, hw]; rfl⟩
      | cons c L =>
        have hc := (hL c (by simp)).1
        exact ⟨s.sNode.get c, (sNode_at h hn hc).1, by rw [h.leafw c hc]; rfl⟩
    obtain ⟨b, rfl⟩ := forced T W hn hv b2 b1 hq (by rw [wq, wa]; exact f2) (by rw [wq, wa]; exact f1)
    have hav := (sNode_at h hn ha).2
    generalize ep : s.sNode.get a = p at *
    cases b2 with
    | cons _ _ _ _ c1 c2 D =>
      obtain ⟨k, k1, k2, k3, k4⟩ := T.pair hn hv c2
      cases D
      rw [k3] at hav wa
      have s1 := W.sum v k hv k1 k2 k3
      have e1 : s.freq.get v = s.freq.get (2 * k) + s.freq.get (2 * k - 1) := by split at s1 <;> omega
      have e2 : s.freq.get (2 * k - (!b).toNat) = s.freq.get v - w a := by
        cases b <;> simp only [Bool.toNat_false, Bool.toNat_true, Bool.not_true, Bool.not_false, Nat.sub_zero] at * <;> omega
      rw [← e2] at f3 f4
      rw [List.nodup_cons] at hnd
      have hx : 2 * k - (!b).toNat < 2 * n - 1 := by omega
      obtain ⟨z, P, z1, z2, z3⟩ := ih (2 * k - (!b).toNat) hx hnd.2 (by
        intro c hc
        obtain ⟨hc', bs, b3, b4⟩ := hL c (List.mem_cons_of_mem _ hc)
        refine ⟨hc', ?_⟩
        generalize ey : s.sNode.get c = y at b4
        have hcv := (sNode_at h hn hc').2
        rw [ey] at hcv
        cases b4 with
        | nil => exact absurd rfl b3
        | cons _ b' bs _ g1 g2 D =>
          rw [k3] at D
          by_cases g : b' = b
          · subst g
            exfalso
            cases D with
            | nil =>
              have : a = c := by omega
              exact hnd.1 (this ▸ hc)
            | cons _ _ _ _ g3 g4 _ => omega
          · have : b' = !b := by cases b <;> cases b' <;> simp_all
            subst this
            refine ⟨bs, ?_, D⟩
            rintro rfl
            cases D
            have := f3 (w c) (List.mem_map_of_mem hc)
            rw [← h.leafw c hc', ey] at this
            omega) f4
      refine ⟨z, (!b) :: P, .cons _ _ _ _ c1 c2 (by rw [k3]; exact z1), by simp [z2], ?_⟩
      rw [z3, e2]
      rfl

/-- A leaf can be reached by zeros. -/
theorem leaf_below {w : Nat → Nat} {s : Dyn} (hn : n ≤ 314) (h : DynInv n 0 w s) (m : Nat) : ∀ x, x < 2 * n - 1 → 2 * n ≤ x + m →
    ∃ j c, c < n ∧ Down s.child.get x (List.replicate j false) (s.sNode.get c) := by
  induction m with
  | zero => intro x _ _; omega
  | succ m ih =>
    intro x hx hm
    have T := h.tree
    obtain ⟨v, ow⟩ := T.node x hx
    rcases v with ⟨c, c1, c2⟩ | ⟨k, k1, k2, k3⟩
    · refine ⟨0, c, c1, ?_⟩
      have := T.inj hx (sNode_at h hn c1).1 (by rw [c2, (sNode_at h hn c1).2])
      rw [← this]
      exact .nil x
    · obtain ⟨k', _, _, k4, k5⟩ := T.pair hn hx (by omega)
      obtain ⟨j, c, j1, j2⟩ := ih (2 * k) (by omega) (by omega)
      exact ⟨j + 1, c, j1, .cons _ _ _ _ (by omega) (by omega) (by rw [k3]; exact j2)⟩

/-- Among leaves of weight one the heavier half can be followed as often as the weight can be halved. -/
theorem halves {w : Nat → Nat} {s : Dyn} (hn : n ≤ 314) (h : DynInv n 0 w s) {S : Nat} (hw : ∀ c, c < n → w c = 1 ∨ S < w c) (j : Nat) :
    ∀ x, x < 2 * n - 1 → s.freq.get x ≤ S → 2 ^ j < s.freq.get x →
    ∃ z P k, Down s.child.get x P z ∧ P.length = j ∧ 1 ≤ k ∧ k < n ∧ s.child.get z = 2 * k := by
  have T := h.tree
  have inner : ∀ x, x < 2 * n - 1 → s.freq.get x ≤ S → 1 < s.freq.get x → ∃ k, 1 ≤ k ∧ k < n ∧ s.child.get x = 2 * k := by
    intro x hx h1 h2
    rcases (T.node x hx).1 with ⟨c, c1, c2⟩ | h'
    · have := T.inj hx (sNode_at h hn c1).1 (by rw [c2, (sNode_at h hn c1).2])
      have e := h.leafw c c1
      rw [← this] at e
      have := hw c c1
      omega
    · exact h'
  induction j with
  | zero =>
    intro x hx h1 h2
    obtain ⟨k, k1⟩ := inner x hx h1 (by simpa using h2)
    exact ⟨x, [], k, .nil x, rfl, k1⟩
  | succ j ih =>
    intro x hx h1 h2
    have hp : 1 ≤ 2 ^ j := Nat.one_le_two_pow
    rw [Nat.pow_succ] at h2
    obtain ⟨k, k1, k2, k3⟩ := inner x hx h1 (by omega)
    have s1 := h.weight.sum x k hx k1 k2 k3
    have m1 := h.weight.mono (2 * k - 1) (2 * k) (by omega) (by omega)
    have m2 := h.weight.pos (2 * k) (by omega)
    have e1 : s.freq.get x = s.freq.get (2 * k) + s.freq.get (2 * k - 1) := by split at s1 <;> omega
    obtain ⟨z, P, l, z1, z2, z3⟩ := ih (2 * k - 1) (by omega) (by omega) (by omega)
    exact ⟨z, true :: P, l, .cons _ _ _ _ (by omega) (by omega) (by rw [k3]; exact z1), by simp [z2], z3⟩

theorem dynCode_of_down {w : Nat → Nat} {s : Dyn} (hn : n ≤ 314) (h : DynInv n 0 w s) {c : Nat} (hc : c < n) {bs : List Bool}
    (D : Down s.child.get 0 bs (s.sNode.get c)) : dynCode s c = bs := by
  have := (path_down h.tree hn D (by omega)).2
  unfold dynCode
  rw [this]
  simp [pathF]

/-- A tree with a code word of `d` bits has one of at least `d` bits that ends with a one and is as long as any. -/
theorem deepest {w : Nat → Nat} {s : Dyn} (hn1 : 2 ≤ n) (hn : n ≤ 314) (h : DynInv n 0 w s) {c0 : Nat} (hc0 : c0 < n) :
    ∃ c Q, c < n ∧ dynCode s c = Q ++ [true] ∧ (∀ a, a < n → (dynCode s a).length ≤ Q.length + 1) := by
  have T := h.tree
  obtain ⟨c, cm, cmax⟩ := Finset.exists_max_image (Finset.range n) (fun a => (dynCode s a).length) ⟨c0, Finset.mem_range.2 hc0⟩
  have hc := Finset.mem_range.1 cm
  have o := sNode_at h hn hc
  have D := down_path T hn 1000 _ o.1 (by omega)
  change Down _ 0 (dynCode s c) _ at D
  have hne : dynCode s c ≠ [] := by
    intro e
    rw [e] at D
    have := T.root hn1
    generalize s.sNode.get c = p at o D
    cases D
    omega
  obtain ⟨Q, b, e⟩ : ∃ Q b, dynCode s c = Q ++ [b] := ⟨_, _, (List.dropLast_append_getLast hne).symm⟩
  have hmax : ∀ a, a < n → (dynCode s a).length ≤ Q.length + 1 := fun a ha => by
    have := cmax a (Finset.mem_range.2 ha)
    rw [e] at this
    simpa using this
  cases b with
  | true => exact ⟨c, Q, hc, e, hmax⟩
  | false =>
    rw [e] at D
    obtain ⟨y, y1, y2⟩ := D.split Q
    have hy := (y1.le T hn (by omega)).2
    cases y2 with
    | cons _ _ _ _ g1 g2 _ =>
      obtain ⟨k, k1, k2, k3, k4⟩ := T.pair hn hy g2
      have y3 := y1.snoc true g1 g2
      rw [k3] at y3
      simp only [Bool.toNat_true] at y3
      obtain ⟨j, a, ha, j2⟩ := leaf_below hn h (2 * n) (2 * k - 1) (by omega) (by omega)
      have ea := dynCode_of_down hn h ha (y3.trans j2)
      have := hmax a ha
      rw [ea] at this
      simp only [List.length_append, List.length_singleton, List.length_replicate] at this
      have : j = 0 := by omega
      subst this
      exact ⟨a, Q, ha, by simpa using ea, hmax⟩

/-- A symbol of weight 400 has a code word of at most nine bits while the total is below 28657. -/
theorem dynCode_heavy {w : Nat → Nat} (hn1 : 2 ≤ n) (hn : n ≤ 314) {c : Nat} {s : Dyn} (h : DynOk n w s) (hc : c < n)
    (hf : s.freq.get 0 < 28657) (hw : 400 ≤ w c) : (dynCode s c).length ≤ 9 := by
  have T := h.inv.tree
  have o := sNode_at h.inv hn hc
  have wc := h.inv.leafw c hc
  have hp : s.sNode.get c ≠ 0 := by
    intro e
    rw [e, T.root hn1] at o
    omega
  unfold dynCode
  generalize s.sNode.get c = p at *
  obtain ⟨q1, q2⟩ := T.parent_of hn (by omega) o.1
  rw [show (1000 : Nat) = 999 + 1 from rfl, pathF, if_neg hp, List.length_append, List.length_singleton]
  have e14 : Nat.fib 14 = 377 := by decide
  have e13 : Nat.fib 13 = 233 := by decide
  have e23 : Nat.fib 23 = 28657 := by decide
  have := fib_path T h.inv.weight hn 999 (s.parent.get p) 12 (by omega) (by omega)
    (by have := h.inv.weight.mono (s.parent.get p) p (by omega) o.1; rw [e14]; omega)
    (fun z z1 z2 => by have := h.inv.weight.mono z p (by omega) o.1; rw [e13]; omega)
  by_contra g
  have b : Nat.fib 23 ≤ Nat.fib (12 + (pathF s.parent.get 999 (s.parent.get p)).length + 2) := Nat.fib_mono (by omega)
  omega

end Lha
