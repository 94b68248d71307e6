import Verif.Proof.Dhuf
import Mathlib.Algebra.BigOperators.Intervals
import Mathlib.Algebra.Order.BigOperators.Group.Finset
/-!
# Rebuilding the adaptive tree
-/

namespace Lha

/-- The tree half rebuilt: `t` inner nodes made, `m` leaves left at the front, the part from `i1` on done.  `lf` and `wt` are the
leaves in order with their weights, `W` is the total. -/
structure RB (n t m i1 : Nat) (lf wt : Nat → Nat) (W : Nat) (child freq : Nat → Nat) : Prop where
  bal : i1 + t + 1 = m + n
  tn : t ≤ n - 1
  mn : m ≤ n
  left : ∀ a, a < m → child a = lf a ∧ freq a = wt a
  sorted : ∀ x y, i1 ≤ x → x ≤ y → y < 2 * n - 1 → freq y ≤ freq x
  cross : 1 ≤ m → i1 < 2 * n - 1 → freq i1 ≤ wt (m - 1)
  kind : ∀ x, i1 ≤ x → x < 2 * n - 1 → (∃ a, m ≤ a ∧ a < n ∧ child x = lf a ∧ freq x = wt a) ∨
    (∃ k, n - t ≤ k ∧ k < n ∧ child x = 2 * k ∧ x < 2 * k - 1 ∧ freq x = freq (2 * k) + freq (2 * k - 1))
  hasL : ∀ a, m ≤ a → a < n → ∃ x, i1 ≤ x ∧ x < 2 * n - 1 ∧ child x = lf a
  hasI : ∀ k, n - t ≤ k → k < n → ∃ x, i1 ≤ x ∧ x < 2 * n - 1 ∧ child x = 2 * k
  inj : ∀ x y, i1 ≤ x → x < 2 * n - 1 → i1 ≤ y → y < 2 * n - 1 → child x = child y → x = y
  sum : (∑ x ∈ Finset.Ico i1 (2 * (n - t) - 1), freq x) + (∑ a ∈ Finset.range m, wt a) = W
  ordL : ∀ x y a b, i1 ≤ x → x < 2 * n - 1 → i1 ≤ y → y < 2 * n - 1 → child x = lf a → child y = lf b → a < n → b < n → a < b → x < y
  ordI : ∀ x y k l, i1 ≤ x → x < 2 * n - 1 → i1 ≤ y → y < 2 * n - 1 → child x = 2 * k → child y = 2 * l → k < n → l < n → k < l → x < y
  tie : ∀ x y, i1 ≤ x → x < y → y < 2 * n - 1 → 32768 ≤ child x → child y < 32768 → freq y < freq x
  crossI : ∀ y, i1 ≤ y → y < 2 * n - 1 → child y < 32768 → 1 ≤ m → freq y < wt (m - 1)

variable {n t m i1 : Nat} {lf wt : Nat → Nat} {W : Nat} {child freq child' freq' : Nat → Nat}

/-- Leaves: distinct, recognisable, in order of weight. -/
structure Leaves (n : Nat) (lf wt : Nat → Nat) : Prop where
  big : ∀ a, a < n → 32768 ≤ lf a ∧ lf a ≤ 65535 ∧ 65535 - lf a < n
  inj : ∀ a b, a < n → b < n → lf a = lf b → a = b
  mono : ∀ a b, a ≤ b → b < n → wt b ≤ wt a
  pos : ∀ a, a < n → 1 ≤ wt a

theorem RB.start (hn1 : 2 ≤ n) (hleft : ∀ a, a < n → child a = lf a ∧ freq a = wt a) (hW : ∑ a ∈ Finset.range n, wt a = W) :
    RB n 0 n (2 * n - 1) lf wt W child freq where
  bal := by omega
  tn := by omega
  mn := by omega
  left := hleft
  sorted := by intros; omega
  cross := by intros; omega
  kind := by intros; omega
  hasL := by intros; omega
  hasI := by intros; omega
  inj := by intros; omega
  sum := by rw [Nat.sub_zero, Finset.Ico_self]; simp [hW]
  ordL := by intros; omega
  ordI := by intros; omega
  tie := by intros; omega
  crossI := by intros; omega

/-- One leaf goes to the end. -/
theorem RB.leaf (hn : n ≤ 314) (L : Leaves n lf wt) (h : RB n t m i1 lf wt W child freq) (hm : 1 ≤ m) (ht : t + 2 ≤ n) (hi : i1 ≤ 2 * (n - t) - 1)
    (hc : ∀ i, child' i = if i = i1 - 1 then child (m - 1) else child i)
    (hf : ∀ i, freq' i = if i = i1 - 1 then freq (m - 1) else freq i) :
    RB n t (m - 1) (i1 - 1) lf wt W child' freq' := by
  have b := h.bal
  have mn := h.mn
  have hlt := h.left (m - 1) (by omega)
  have c0 : child' (i1 - 1) = lf (m - 1) := by rw [hc, if_pos rfl, hlt.1]
  have f0 : freq' (i1 - 1) = wt (m - 1) := by rw [hf, if_pos rfl, hlt.2]
  have cn : ∀ i, i ≠ i1 - 1 → child' i = child i := fun i hi => by rw [hc, if_neg hi]
  have fn : ∀ i, i ≠ i1 - 1 → freq' i = freq i := fun i hi => by rw [hf, if_neg hi]
  have low : ∀ y, i1 ≤ y → y < 2 * n - 1 → freq y ≤ wt (m - 1) := fun y a c =>
    Nat.le_trans (h.sorted i1 y (by omega) a c) (h.cross hm (by omega))
  have hnew : ∀ y, i1 ≤ y → y < 2 * n - 1 → child y ≠ lf (m - 1) := by
    intro y a c e
    rcases h.kind y a c with ⟨a', d1, d2, d3, _⟩ | ⟨k, d1, d2, d3, _⟩
    · have := L.inj _ _ d2 (by omega) (d3.symm.trans e); omega
    · have := L.big (m - 1) (by omega); omega
  have bigm := L.big (m - 1) (by omega)
  refine ⟨by omega, h.tn, by omega, ?_, ?_, ?_, ?_, ?_, ?_, ?_, ?_, ?_, ?_, ?_, ?_⟩
  · intro a ha
    rw [cn a (by omega), fn a (by omega)]
    exact h.left a (by omega)
  · intro x y hx hxy hy
    by_cases e : x = i1 - 1
    · by_cases e' : y = i1 - 1
      · rw [e, e']
      · rw [e, f0, fn y e']; exact low y (by omega) hy
    · rw [fn x e, fn y (by omega)]
      exact h.sorted x y (by omega) hxy hy
  · intro h1 h2
    rw [f0]
    exact L.mono _ _ (by omega) (by omega)
  · intro x hx hx'
    by_cases e : x = i1 - 1
    · left
      exact ⟨m - 1, by omega, by omega, by rw [e, c0], by rw [e, f0]⟩
    · rcases h.kind x (by omega) hx' with ⟨a, d1, d2, d3, d4⟩ | ⟨k, d1, d2, d3, d4, d5⟩
      · left
        exact ⟨a, by omega, d2, by rw [cn x e, d3], by rw [fn x e, d4]⟩
      · right
        refine ⟨k, d1, d2, by rw [cn x e, d3], d4, ?_⟩
        rw [fn x e, fn _ (by omega), fn _ (by omega), d5]
  · intro a ha1 ha2
    by_cases e : a = m - 1
    · exact ⟨i1 - 1, by omega, by omega, by rw [c0, e]⟩
    · obtain ⟨x, d1, d2, d3⟩ := h.hasL a (by omega) ha2
      exact ⟨x, by omega, d2, by rw [cn x (by omega), d3]⟩
  · intro k hk1 hk2
    obtain ⟨x, d1, d2, d3⟩ := h.hasI k hk1 hk2
    exact ⟨x, by omega, d2, by rw [cn x (by omega), d3]⟩
  · intro x y hx hx' hy hy' e
    by_cases ex : x = i1 - 1
    · by_cases ey : y = i1 - 1
      · omega
      · rw [ex, c0, cn y ey] at e
        exact absurd e.symm (hnew y (by omega) hy')
    · by_cases ey : y = i1 - 1
      · rw [ey, c0, cn x ex] at e
        exact absurd e (hnew x (by omega) hx')
      · rw [cn x ex, cn y ey] at e
        exact h.inj x y (by omega) hx' (by omega) hy' e
  · have s := h.sum
    have s1 : ∑ a ∈ Finset.range m, wt a = ∑ a ∈ Finset.range (m - 1), wt a + wt (m - 1) := by
      rw [← Finset.sum_range_succ, Nat.sub_add_cancel hm]
    have s2 : ∑ x ∈ Finset.Ico (i1 - 1) (2 * (n - t) - 1), freq' x = freq' (i1 - 1) + ∑ x ∈ Finset.Ico i1 (2 * (n - t) - 1), freq' x := by
      rw [Finset.sum_eq_sum_Ico_succ_bot (by omega), Nat.sub_add_cancel (by omega)]
    have s3 : ∑ x ∈ Finset.Ico i1 (2 * (n - t) - 1), freq' x = ∑ x ∈ Finset.Ico i1 (2 * (n - t) - 1), freq x := by
      apply Finset.sum_congr rfl
      intro x hx
      have := Finset.mem_Ico.1 hx
      exact fn x (by omega)
    rw [s2, s3, f0]
    omega
  · intro x y a b hx hx' hy hy' e1 e2 ha hb hab
    by_cases ex : x = i1 - 1
    · by_cases ey : y = i1 - 1
      · have := L.inj a b ha hb (by rw [← e1, ← e2, ex, ey]); omega
      · omega
    · by_cases ey : y = i1 - 1
      · exfalso
        rw [ey, c0] at e2
        have hbm := L.inj _ _ (by omega) hb e2
        rw [cn x ex] at e1
        rcases h.kind x (by omega) hx' with ⟨a', d1, d2, d3, _⟩ | ⟨k, d1, d2, d3, _⟩
        · have := L.inj _ _ ha d2 (e1.symm.trans d3); omega
        · have := L.big a ha; omega
      · rw [cn x ex] at e1
        rw [cn y ey] at e2
        exact h.ordL x y a b (by omega) hx' (by omega) hy' e1 e2 ha hb hab
  · intro x y k l hx hx' hy hy' e1 e2 hk hl hkl
    have ex : x ≠ i1 - 1 := fun ex => by rw [ex, c0] at e1; omega
    have ey : y ≠ i1 - 1 := fun ey => by rw [ey, c0] at e2; omega
    rw [cn x ex] at e1
    rw [cn y ey] at e2
    exact h.ordI x y k l (by omega) hx' (by omega) hy' e1 e2 hk hl hkl
  · intro x y hx hxy hy e1 e2
    have ey : y ≠ i1 - 1 := by omega
    rw [cn y ey] at e2
    rw [fn y ey]
    by_cases ex : x = i1 - 1
    · rw [ex, f0]
      exact h.crossI y (by omega) hy e2 hm
    · rw [cn x ex] at e1
      rw [fn x ex]
      exact h.tie x y (by omega) hxy hy e1 e2
  · intro y hy hy' e2 hm2
    have ey : y ≠ i1 - 1 := fun ey => by rw [ey, c0] at e2; omega
    rw [cn y ey] at e2
    rw [fn y ey]
    have := h.crossI y (by omega) hy' e2 hm
    have := L.mono (m - 1 - 1) (m - 1) (by omega) (by omega)
    omega

/-- One inner node over the last pair. -/
theorem RB.inner (hn : n ≤ 314) (L : Leaves n lf wt) (h : RB n t m i1 lf wt W child freq) (ht : t + 2 ≤ n)
    (hi : i1 ≤ 2 * (n - t) - 3)
    (hge : freq i1 ≤ freq (2 * (n - t) - 3) + freq (2 * (n - t) - 2))
    (hlt : 1 ≤ m → freq (2 * (n - t) - 3) + freq (2 * (n - t) - 2) < wt (m - 1))
    (hc : ∀ i, child' i = if i = i1 - 1 then 2 * (n - t) - 2 else child i)
    (hf : ∀ i, freq' i = if i = i1 - 1 then freq (2 * (n - t) - 3) + freq (2 * (n - t) - 2) else freq i) :
    RB n (t + 1) m (i1 - 1) lf wt W child' freq' := by
  have b := h.bal
  have mn := h.mn
  have c0 : child' (i1 - 1) = 2 * (n - t) - 2 := by rw [hc, if_pos rfl]
  have f0 : freq' (i1 - 1) = freq (2 * (n - t) - 3) + freq (2 * (n - t) - 2) := by rw [hf, if_pos rfl]
  have cn : ∀ i, i ≠ i1 - 1 → child' i = child i := fun i hi => by rw [hc, if_neg hi]
  have fn : ∀ i, i ≠ i1 - 1 → freq' i = freq i := fun i hi => by rw [hf, if_neg hi]
  have hnew : ∀ y, i1 ≤ y → y < 2 * n - 1 → child y ≠ 2 * (n - t) - 2 := by
    intro y a c e
    rcases h.kind y a c with ⟨a', d1, d2, d3, _⟩ | ⟨k, d1, d2, d3, _⟩
    · have := L.big a' (by omega); omega
    · omega
  refine ⟨by omega, by omega, h.mn, ?_, ?_, ?_, ?_, ?_, ?_, ?_, ?_, ?_, ?_, ?_, ?_⟩
  · intro a ha
    rw [cn a (by omega), fn a (by omega)]
    exact h.left a (by omega)
  · intro x y hx hxy hy
    by_cases e : x = i1 - 1
    · by_cases e' : y = i1 - 1
      · rw [e, e']
      · rw [e, f0, fn y e']
        have := h.sorted i1 y (by omega) (by omega) hy
        omega
    · rw [fn x e, fn y (by omega)]
      exact h.sorted x y (by omega) hxy hy
  · intro h1 h2
    rw [f0]
    exact Nat.le_of_lt (hlt h1)
  · intro x hx hx'
    by_cases e : x = i1 - 1
    · right
      refine ⟨n - t - 1, by omega, by omega, by rw [e, c0]; omega, by omega, ?_⟩
      rw [e, f0, fn _ (by omega), fn _ (by omega), show 2 * (n - t - 1) = 2 * (n - t) - 2 from by omega,
        show 2 * (n - t) - 2 - 1 = 2 * (n - t) - 3 from by omega]
      omega
    · rcases h.kind x (by omega) hx' with ⟨a, d1, d2, d3, d4⟩ | ⟨k, d1, d2, d3, d4, d5⟩
      · left
        exact ⟨a, by omega, d2, by rw [cn x e, d3], by rw [fn x e, d4]⟩
      · right
        refine ⟨k, by omega, d2, by rw [cn x e, d3], d4, ?_⟩
        rw [fn x e, fn _ (by omega), fn _ (by omega), d5]
  · intro a ha1 ha2
    obtain ⟨x, d1, d2, d3⟩ := h.hasL a (by omega) ha2
    exact ⟨x, by omega, d2, by rw [cn x (by omega), d3]⟩
  · intro k hk1 hk2
    by_cases e : k = n - t - 1
    · exact ⟨i1 - 1, by omega, by omega, by rw [c0, e]; omega⟩
    · obtain ⟨x, d1, d2, d3⟩ := h.hasI k (by omega) hk2
      exact ⟨x, by omega, d2, by rw [cn x (by omega), d3]⟩
  · intro x y hx hx' hy hy' e
    by_cases ex : x = i1 - 1
    · by_cases ey : y = i1 - 1
      · omega
      · rw [ex, c0, cn y ey] at e
        exact absurd e.symm (hnew y (by omega) hy')
    · by_cases ey : y = i1 - 1
      · rw [ey, c0, cn x ex] at e
        exact absurd e (hnew x (by omega) hx')
      · rw [cn x ex, cn y ey] at e
        exact h.inj x y (by omega) hx' (by omega) hy' e
  · have s := h.sum
    have s2 : ∑ x ∈ Finset.Ico (i1 - 1) (2 * (n - (t + 1)) - 1), freq' x =
        freq' (i1 - 1) + ∑ x ∈ Finset.Ico i1 (2 * (n - (t + 1)) - 1), freq' x := by
      rw [Finset.sum_eq_sum_Ico_succ_bot (by omega), Nat.sub_add_cancel (by omega)]
    have s3 : ∑ x ∈ Finset.Ico i1 (2 * (n - (t + 1)) - 1), freq' x = ∑ x ∈ Finset.Ico i1 (2 * (n - (t + 1)) - 1), freq x := by
      apply Finset.sum_congr rfl
      intro x hx
      have := Finset.mem_Ico.1 hx
      exact fn x (by omega)
    have s4 : ∑ x ∈ Finset.Ico i1 (2 * (n - t) - 1), freq x = ∑ x ∈ Finset.Ico i1 (2 * (n - (t + 1)) - 1), freq x +
        freq (2 * (n - t) - 3) + freq (2 * (n - t) - 2) := by
      rw [show 2 * (n - t) - 1 = 2 * (n - t) - 2 + 1 from by omega, Finset.sum_Ico_succ_top (by omega),
        show Finset.Ico i1 (2 * (n - t) - 2) = Finset.Ico i1 (2 * (n - t) - 3 + 1) from by congr 1; omega,
        Finset.sum_Ico_succ_top (by omega), show 2 * (n - (t + 1)) - 1 = 2 * (n - t) - 3 from by omega]
    rw [s2, s3, f0]
    omega
  · intro x y a b hx hx' hy hy' e1 e2 ha hb hab
    have ex : x ≠ i1 - 1 := fun ex => by rw [ex, c0] at e1; have := L.big a ha; omega
    have ey : y ≠ i1 - 1 := fun ey => by rw [ey, c0] at e2; have := L.big b hb; omega
    rw [cn x ex] at e1
    rw [cn y ey] at e2
    exact h.ordL x y a b (by omega) hx' (by omega) hy' e1 e2 ha hb hab
  · intro x y k l hx hx' hy hy' e1 e2 hk hl hkl
    by_cases ex : x = i1 - 1
    · by_cases ey : y = i1 - 1
      · rw [ex] at e1; rw [ey] at e2; omega
      · omega
    · rw [cn x ex] at e1
      by_cases ey : y = i1 - 1
      · exfalso
        rw [ey, c0] at e2
        rcases h.kind x (by omega) hx' with ⟨a', d1, d2, d3, _⟩ | ⟨k', d1, d2, d3, _⟩
        · have := L.big a' d2; omega
        · omega
      · rw [cn y ey] at e2
        exact h.ordI x y k l (by omega) hx' (by omega) hy' e1 e2 hk hl hkl
  · intro x y hx hxy hy e1 e2
    have ey : y ≠ i1 - 1 := by omega
    have ex : x ≠ i1 - 1 := fun ex => by rw [ex, c0] at e1; omega
    rw [cn y ey] at e2
    rw [cn x ex] at e1
    rw [fn y ey, fn x ex]
    exact h.tie x y (by omega) hxy hy e1 e2
  · intro y hy hy' e2 hm2
    by_cases ey : y = i1 - 1
    · rw [ey, f0]
      exact hlt hm2
    · rw [cn y ey] at e2
      rw [fn y ey]
      exact h.crossI y (by omega) hy' e2 hm2

theorem rcMove_ok (hn : n ≤ 314) (L : Leaves n lf wt) (ht : t + 2 ≤ n) (c : Nat) : ∀ (m i1 : Nat) (s : Dyn),
    RB n t m i1 lf wt W s.child.get s.freq.get → s.child.size = 884 → s.freq.size = 884 → c ≤ m → i1 ≤ 2 * (n - t) - 1 →
    ∃ ch fr, rcMove c i1 m s = .ok (i1 - c, m - c, { s with freq := fr, child := ch }) ∧ ch.size = 884 ∧ fr.size = 884 ∧
      RB n t (m - c) (i1 - c) lf wt W ch.get fr.get ∧ (1 ≤ c → fr.get (i1 - c) = wt (m - c)) ∧
      (∀ x, i1 ≤ x → fr.get x = s.freq.get x) ∧ (c = 0 → fr = s.freq) := by
  induction c with
  | zero =>
    intro m i1 s h z1 z2 hc hi
    exact ⟨s.child, s.freq, rfl, z1, z2, h, by omega, fun _ _ => rfl, fun _ => rfl⟩
  | succ c ih =>
    intro m i1 s h z1 z2 hc hi
    have b := h.bal
    have mn := h.mn
    rw [rcMove, if_neg (by omega), rd_ok (by rw [z2]; omega), ok_bind, wr_ok (by rw [z2]; omega), ok_bind,
      rd_ok (by rw [z1]; omega), ok_bind, wr_ok (by rw [z1]; omega), ok_bind]
    have R := h.leaf hn L (by omega) ht hi (child' := (s.child.upd (i1 - 1) (s.child.get (m - 1))).get)
      (freq' := (s.freq.upd (i1 - 1) (s.freq.get (m - 1))).get) (fun i => by rw [Arr.get_upd]) (fun i => by rw [Arr.get_upd])
    obtain ⟨ch, fr, e, y1, y2, R', p1, p2, p3⟩ := ih (m - 1) (i1 - 1) { s with
      freq := s.freq.upd (i1 - 1) (s.freq.get (m - 1)), child := s.child.upd (i1 - 1) (s.child.get (m - 1)) } R
      (by simp [z1]) (by simp [z2]) (by omega) (by omega)
    rw [Nat.sub_sub, Nat.sub_sub, Nat.add_comm 1 c] at e R' p1
    refine ⟨ch, fr, e, y1, y2, R', ?_, ?_, by omega⟩
    · intro _
      by_cases g : 1 ≤ c
      · exact p1 g
      · have : c = 0 := by omega
        subst this
        rw [p3 rfl]
        simp only [Nat.zero_add, Arr.get_upd_same]
        exact (h.left (m - 1) (by omega)).2
    · intro x hx
      rw [p2 x (by omega)]
      exact Arr.get_upd_ne _ _ _ _ (by omega)

theorem rcFind_ok {fr : Arr} {f l : Nat} (hz : l < fr.size) (hl : fr.get l ≤ f) (fuel : Nat) : ∀ k, k ≤ l → l - k < fuel →
    ∃ k', rcFind fr f fuel k = .ok k' ∧ k ≤ k' ∧ k' ≤ l ∧ fr.get k' ≤ f ∧ ∀ x, k ≤ x → x < k' → f < fr.get x := by
  induction fuel with
  | zero => intro k h1 h2; omega
  | succ fuel ih =>
    intro k h1 h2
    rw [rcFind, rd_ok (by omega), ok_bind]
    by_cases g : f < fr.get k
    · rw [if_pos g]
      have : k ≠ l := fun e => by rw [e] at g; omega
      obtain ⟨k', e, a1, a2, a3, a4⟩ := ih (k + 1) (by omega) (by omega)
      refine ⟨k', e, by omega, a2, a3, fun x hx hx' => ?_⟩
      by_cases ex : x = k
      · rw [ex]; exact g
      · exact a4 x (by omega) hx'
    · rw [if_neg g]
      exact ⟨k, rfl, by omega, h1, by omega, fun x _ _ => by omega⟩

/-- First half of a round: the last two places get filled. -/
theorem rcRound1 (hn : n ≤ 314) (L : Leaves n lf wt) (ht : t + 2 ≤ n) {s : Dyn}
    (h : RB n t m i1 lf wt W s.child.get s.freq.get) (z1 : s.child.size = 884) (z2 : s.freq.size = 884)
    (h0 : t = 0 → i1 = 2 * n - 1) (h1 : 1 ≤ t → i1 ≤ 2 * (n - t) - 2)
    (hF : 1 ≤ t → s.freq.get i1 = s.freq.get (2 * (n - t) - 1) + s.freq.get (2 * (n - t))) {l : Nat} (hl : l = 2 * (n - t) - 3) :
    ∃ ch fr i2 m2, rcMove (i1 - l) i1 m s = .ok (i2, m2, { s with freq := fr, child := ch }) ∧ ch.size = 884 ∧ fr.size = 884 ∧
      RB n t m2 i2 lf wt W ch.get fr.get ∧ i2 ≤ l ∧ fr.get i2 ≤ fr.get l + fr.get (l + 1) ∧ fr.get l + fr.get (l + 1) ≤ W := by
  have b := h.bal
  have mn := h.mn
  have hi1 : i1 ≤ 2 * (n - t) - 1 := by
    by_cases g : t = 0
    · rw [h0 g]; omega
    · have := h1 (by omega); omega
  obtain ⟨ch, fr, e, y1, y2, R, p1, p2, p3⟩ := rcMove_ok hn L ht (i1 - l) m i1 s h z1 z2 (by omega) hi1
  refine ⟨ch, fr, _, _, e, y1, y2, R, by omega, ?_, ?_⟩
  · by_cases c : 1 ≤ i1 - l
    · rw [show i1 - (i1 - l) = l from by omega]; omega
    · have t1 : 1 ≤ t := by
        by_contra g
        have := h0 (by omega)
        omega
      have q1 := h.sorted l (2 * (n - t) - 1) (by omega) (by omega) (by omega)
      have q2 := h.sorted (l + 1) (2 * (n - t)) (by omega) (by omega) (by omega)
      rw [show i1 - (i1 - l) = i1 from by omega, p3 (by omega), hF t1]
      omega
  · have hsum := R.sum
    have : ∑ x ∈ Finset.Ico l (2 * (n - t) - 1), fr.get x = fr.get l + fr.get (l + 1) := by
      rw [show 2 * (n - t) - 1 = l + 1 + 1 from by omega, Finset.sum_Ico_succ_top (by omega), Finset.sum_Ico_succ_top (by omega),
        Finset.Ico_self]
      simp
    have le : ∑ x ∈ Finset.Ico l (2 * (n - t) - 1), fr.get x ≤ ∑ x ∈ Finset.Ico (i1 - (i1 - l)) (2 * (n - t) - 1), fr.get x := by
      apply Finset.sum_le_sum_of_subset
      intro x hx
      rw [Finset.mem_Ico] at hx ⊢
      omega
    omega

/-- Second half: the leaves that are not heavier, then the new inner node. -/
theorem rcRound2 (hn : n ≤ 314) (L : Leaves n lf wt) (ht : t + 2 ≤ n) {s : Dyn}
    (R : RB n t m i1 lf wt W s.child.get s.freq.get) (y1 : s.child.size = 884) (y2 : s.freq.size = 884)
    {l f : Nat} (hl : l = 2 * (n - t) - 3) (hi : i1 ≤ l) (hf : f = s.freq.get l + s.freq.get (l + 1)) (g1 : s.freq.get i1 ≤ f) :
    ∃ ch fr i3 m3 k, rcFind s.freq f 900 0 = .ok k ∧
      rcMove (m - k) i1 m s = .ok (i3, m3, { s with freq := fr, child := ch }) ∧ ch.size = 884 ∧ fr.size = 884 ∧
      1 ≤ i3 ∧ i3 ≤ l ∧ RB n (t + 1) m3 (i3 - 1) lf wt W (ch.upd (i3 - 1) (l + 1)).get (fr.upd (i3 - 1) f).get ∧
      fr.get l + fr.get (l + 1) = f := by
  obtain ⟨k, ek, k1, k2, k3, k4⟩ := rcFind_ok (fr := s.freq) (f := f) (l := l) (by rw [y2]; omega) (by omega) 900 0 (by omega) (by omega)
  have b2 := R.bal
  obtain ⟨ch2, fr2, e2, x1, x2, R2, r1, r2, r3⟩ := rcMove_ok hn L ht (m - k) m i1 s R y1 y2 (by omega) (by omega)
  have b3 := R2.bal
  have g2 : fr2.get (i1 - (m - k)) ≤ f := by
    by_cases c : 1 ≤ m - k
    · rw [r1 c, show m - (m - k) = k from by omega, ← (R.left k (by omega)).2]; exact k3
    · rw [r3 (by omega), show i1 - (m - k) = i1 from by omega]; exact g1
  have g3 : 1 ≤ m - (m - k) → f < wt (m - (m - k) - 1) := by
    intro c
    rw [← (R.left _ (by omega)).2]
    exact k4 _ (by omega) (by omega)
  have g4 : fr2.get l = s.freq.get l := r2 l (by omega)
  have g5 : fr2.get (l + 1) = s.freq.get (l + 1) := r2 (l + 1) (by omega)
  have hl1 : 2 * (n - t) - 2 = l + 1 := by omega
  refine ⟨ch2, fr2, _, _, k, ek, e2, x1, x2, by omega, by omega, ?_, by omega⟩
  exact R2.inner hn L ht (by omega) (by rw [← hl, hl1, g4, g5, ← hf]; exact g2)
    (by rw [← hl, hl1, g4, g5, ← hf]; intro c; exact g3 c)
    (fun i => by rw [Arr.get_upd, hl1]) (fun i => by rw [Arr.get_upd, ← hl, hl1, g4, g5, hf])

theorem rcBuild_ok (hn1 : 2 ≤ n) (hn : n ≤ 314) (L : Leaves n lf wt) (hW : W < 65536) (fuel : Nat) : ∀ (t m i1 : Nat) (s : Dyn),
    RB n t m i1 lf wt W s.child.get s.freq.get → s.child.size = 884 → s.freq.size = 884 →
    (t = 0 → i1 = 2 * n - 1) → (1 ≤ t → i1 ≤ 2 * (n - t) - 2) →
    (1 ≤ t → s.freq.get i1 = s.freq.get (2 * (n - t) - 1) + s.freq.get (2 * (n - t))) → n - t ≤ fuel →
    ∃ ch fr, rcBuild 0 fuel i1 m (2 * (n - t) - 3) s = .ok { s with freq := fr, child := ch } ∧ ch.size = 884 ∧ fr.size = 884 ∧
      RB n (n - 1) 0 0 lf wt W ch.get fr.get := by
  induction fuel with
  | zero => intro t m i1 s h; have := h.tn; intros; omega
  | succ fuel ih =>
    intro t m i1 s h z1 z2 h0 h1 hF hfu
    have b := h.bal
    have tn := h.tn
    rw [rcBuild]
    by_cases hi : 0 < i1
    · rw [if_pos hi]
      have ht : t + 2 ≤ n := by
        by_contra g
        have : t = n - 1 := by omega
        have := h1 (by omega)
        omega
      obtain ⟨l, hl⟩ : ∃ l, l = 2 * (n - t) - 3 := ⟨_, rfl⟩
      rw [← hl]
      obtain ⟨ch, fr, i2, m2, e, y1, y2, R, q1, q2, q3⟩ := rcRound1 hn L ht h z1 z2 h0 h1 hF hl
      rw [e, ok_bind]
      simp only []
      rw [rd_ok (by rw [y2]; omega), ok_bind, rd_ok (by rw [y2]; omega), ok_bind, Nat.mod_eq_of_lt (by omega)]
      obtain ⟨ch2, fr2, i3, m3, k, ek, e2, x1, x2, j1, j2, R3, j3⟩ := rcRound2 (s := { s with freq := fr, child := ch }) hn L ht R y1 y2
        hl q1 rfl q2
      simp only [] at ek j3
      rw [ek, ok_bind, e2, ok_bind]
      simp only []
      have b3 := R3.bal
      rw [if_neg (by omega), wr_ok (by rw [x2]; omega), ok_bind, wr_ok (by rw [x1]; omega), ok_bind, if_neg (by omega)]
      have := ih (t + 1) m3 (i3 - 1) { s with
          freq := fr2.upd (i3 - 1) (fr.get l + fr.get (l + 1)), child := ch2.upd (i3 - 1) (l + 1) } R3
        (by simp [x1]) (by simp [x2]) (by omega) (by omega)
        (by
          intro _
          simp only []
          rw [Arr.get_upd_same, Arr.get_upd_ne _ _ _ _ (by omega), Arr.get_upd_ne _ _ _ _ (by omega),
            show 2 * (n - (t + 1)) - 1 = l from by omega, show 2 * (n - (t + 1)) = l + 1 from by omega, j3])
        (by omega)
      rw [show 2 * (n - (t + 1)) - 3 = l - 2 from by omega] at this
      exact this
    · rw [if_neg hi]
      have hi0 : i1 = 0 := by omega
      have hm0 : m = 0 := by omega
      have ht : t = n - 1 := by omega
      subst hi0 hm0 ht
      exact ⟨s.child, s.freq, rfl, z1, z2, h⟩

end Lha
