import Mathlib.Algebra.BigOperators.Group.Multiset.Basic
import Mathlib.Algebra.Order.BigOperators.Group.Multiset
import Mathlib.Algebra.BigOperators.Ring.Multiset
import Mathlib.Tactic.Ring
import Mathlib.Tactic.NormNum
/-!
# Huffman's algorithm is optimal
-/

namespace Lha

/-- Merging two smallest weights at a time down to one weight; the second argument is the sum of all weights made. -/
inductive Huff : Multiset Nat → Nat → Prop
  | one (w : Nat) : Huff {w} 0
  | merge (a b C : Nat) (s : Multiset Nat) (hab : a ≤ b) (hb : ∀ x ∈ s, b ≤ x) (h : Huff ((a + b) ::ₘ s) C) :
      Huff (a ::ₘ b ::ₘ s) (a + b + C)

/-- Sum of weight times length. -/
def costM (S : Multiset (Nat × Nat)) : Nat := (S.map (fun p => p.1 * p.2)).sum

/-- Kraft sum of the lengths, scaled by `2^M`. -/
def kraftM (M : Nat) (S : Multiset (Nat × Nat)) : Nat := (S.map (fun p => 2 ^ (M - p.2))).sum

theorem costM_cons (p : Nat × Nat) (S : Multiset (Nat × Nat)) : costM (p ::ₘ S) = p.1 * p.2 + costM S := by
  simp [costM]
theorem kraftM_cons (M : Nat) (p : Nat × Nat) (S : Multiset (Nat × Nat)) :
    kraftM M (p ::ₘ S) = 2 ^ (M - p.2) + kraftM M S := by
  simp [kraftM]

/-- The smallest weight may be given the largest length. -/
theorem exchange (a la M : Nat) (T : Multiset (Nat × Nat)) (ha : ∀ p ∈ T, a ≤ p.1) :
    ∃ x T', T'.map Prod.fst = T.map Prod.fst ∧ (∀ p ∈ T', p.2 ≤ x) ∧
      2 ^ (M - x) + kraftM M T' = 2 ^ (M - la) + kraftM M T ∧ a * x + costM T' ≤ a * la + costM T ∧
      (∀ k, la ≤ k → (∀ p ∈ T, p.2 ≤ k) → x ≤ k ∧ ∀ p ∈ T', p.2 ≤ k) ∧
      x ::ₘ T'.map Prod.snd = la ::ₘ T.map Prod.snd := by
  by_cases h : ∀ p ∈ T, p.2 ≤ la
  · exact ⟨la, T, rfl, h, rfl, Nat.le_refl _, fun k h1 h2 => ⟨h1, h2⟩, rfl⟩
  · have hne : ∃ p ∈ T, ∀ q ∈ T, q.2 ≤ p.2 := by
      have hT : T ≠ 0 := by
        intro e; subst e; exact h (by simp)
      clear h ha
      induction T using Multiset.induction with
      | empty => exact absurd rfl hT
      | cons p T ih =>
        by_cases hT0 : T = 0
        · subst hT0; exact ⟨p, by simp, by simp⟩
        · obtain ⟨q, hq, hm⟩ := ih hT0
          by_cases hpq : p.2 ≤ q.2
          · refine ⟨q, Multiset.mem_cons_of_mem hq, ?_⟩
            intro r hr
            rcases Multiset.mem_cons.mp hr with e | e
            · rw [e]; exact hpq
            · exact hm r e
          · refine ⟨p, Multiset.mem_cons_self _ _, ?_⟩
            intro r hr
            rcases Multiset.mem_cons.mp hr with e | e
            · rw [e]
            · have := hm r e; omega
    obtain ⟨⟨w, x⟩, hp, hm⟩ := hne
    have hla : la < x := by
      simp only [not_forall] at h
      obtain ⟨q, hq, hl⟩ := h
      have := hm q hq
      simp only [] at this
      omega
    obtain ⟨T0, hT0⟩ := Multiset.exists_cons_of_mem hp
    subst hT0
    have haw := ha _ hp
    simp only [] at haw
    refine ⟨x, (w, la) ::ₘ T0, by simp, ?_, ?_, ?_, ?_, ?_⟩
    · intro q hq
      rcases Multiset.mem_cons.mp hq with e | e
      · subst e; exact Nat.le_of_lt hla
      · exact hm q (Multiset.mem_cons_of_mem e)
    · rw [kraftM_cons, kraftM_cons]
      simp only []
      omega
    · rw [costM_cons, costM_cons]
      simp only []
      obtain ⟨d, rfl⟩ := Nat.exists_eq_add_of_le haw
      obtain ⟨e, rfl⟩ := Nat.exists_eq_add_of_lt hla
      have : a * (la + e + 1) + ((a + d) * la) ≤ a * la + (a + d) * (la + e + 1) := by
        have : a * la + (a + d) * (la + e + 1) = a * (la + e + 1) + ((a + d) * la) + d * (e + 1) := by ring
        omega
      omega
    · intro k h1 h2
      refine ⟨h2 _ hp, ?_⟩
      intro q hq
      rcases Multiset.mem_cons.mp hq with e | e
      · subst e; exact h1
      · exact h2 q (Multiset.mem_cons_of_mem e)
    · rw [Multiset.map_cons, Multiset.map_cons, Multiset.cons_swap]

/-- Larger weights with smaller lengths: the cheapest way to distribute the lengths. -/
theorem rearrange (L : List (Nat × Nat)) (hL : L.Pairwise (fun p q => p.1 ≤ q.1 ∧ q.2 ≤ p.2)) (T : Multiset (Nat × Nat))
    (h1 : T.map Prod.fst = (L : Multiset (Nat × Nat)).map Prod.fst)
    (h2 : T.map Prod.snd = (L : Multiset (Nat × Nat)).map Prod.snd) : costM L ≤ costM T := by
  induction L generalizing T with
  | nil => simp [costM]
  | cons p L ih =>
    obtain ⟨a, x⟩ := p
    obtain ⟨hp, hL'⟩ := List.pairwise_cons.mp hL
    rw [← Multiset.cons_coe, Multiset.map_cons] at h1 h2
    obtain ⟨q, hq, hq1, hq2⟩ := (Multiset.map_eq_cons _ _ _ _).mpr h1
    obtain ⟨a', la⟩ := q
    simp only [] at hq1 h1 h2
    subst hq1
    have e := (Multiset.cons_erase hq).symm
    generalize T.erase (a', la) = T1 at *
    subst e
    obtain ⟨x', T', f1, f2, _, f4, _, f6⟩ := exchange a' la 0 T1 (by
      intro p hp'
      have : p.1 ∈ T1.map Prod.fst := Multiset.mem_map_of_mem _ hp'
      rw [hq2] at this
      obtain ⟨r, hr, e⟩ := Multiset.mem_map.mp this
      rw [← e]
      exact (hp r hr).1)
    rw [Multiset.map_cons] at h2
    rw [h2] at f6
    have hxx : x' = x := by
      have m1 : x ∈ x' ::ₘ T'.map Prod.snd := by rw [f6]; exact Multiset.mem_cons_self _ _
      have m2 : x' ∈ x ::ₘ (L : Multiset (Nat × Nat)).map Prod.snd := by rw [← f6]; exact Multiset.mem_cons_self _ _
      have l1 : x ≤ x' := by
        rcases Multiset.mem_cons.mp m1 with e | e
        · omega
        · obtain ⟨r, hr, e⟩ := Multiset.mem_map.mp e
          rw [← e]; exact f2 r hr
      have l2 : x' ≤ x := by
        rcases Multiset.mem_cons.mp m2 with e | e
        · omega
        · obtain ⟨r, hr, e⟩ := Multiset.mem_map.mp e
          rw [← e]; exact (hp r hr).2
      omega
    subst hxx
    have := ih hL' T' (by rw [f1, hq2]) ((Multiset.cons_inj_right _).mp f6)
    rw [← Multiset.cons_coe, costM_cons, costM_cons]
    simp only []
    omega

theorem kraftM_dvd (M y : Nat) (T : Multiset (Nat × Nat)) (h : ∀ p ∈ T, p.2 ≤ y) : 2 ^ (M - y) ∣ kraftM M T := by
  apply Multiset.dvd_sum
  intro x hx
  obtain ⟨p, hp, rfl⟩ := Multiset.mem_map.mp hx
  exact Nat.pow_dvd_pow 2 (by have := h p hp; omega)

/-- Huffman's algorithm gives a lower bound for all lengths satisfying Kraft's inequality. -/
theorem Huff.le {W : Multiset Nat} {C : Nat} (h : Huff W C) (M : Nat) (S : Multiset (Nat × Nat))
    (hS : S.map Prod.fst = W) (hM : ∀ p ∈ S, p.2 ≤ M) (hk : kraftM M S ≤ 2 ^ M) : C ≤ costM S := by
  induction h generalizing S with
  | one w => omega
  | merge a b C s hab hb h ih =>
    obtain ⟨pa, hpa, ha1, hS1⟩ := (Multiset.map_eq_cons _ _ _ _).mpr hS
    obtain ⟨pb, hpb, hb1, hS2⟩ := (Multiset.map_eq_cons _ _ _ _).mpr hS1
    obtain ⟨a', la⟩ := pa
    obtain ⟨b', lb⟩ := pb
    simp only [] at ha1 hb1
    subst ha1
    subst hb1
    have e1 := (Multiset.cons_erase hpa).symm
    have e2 := (Multiset.cons_erase hpb).symm
    generalize S.erase (a', la) = S1 at *
    generalize S1.erase (b', lb) = T at *
    subst e2
    subst e1
    have hbT : ∀ p ∈ T, b' ≤ p.1 := by
      intro p hp
      apply hb
      rw [← hS2]
      exact Multiset.mem_map_of_mem _ hp
    obtain ⟨x, S2, f1, f2, f3, f4, f5, _⟩ := exchange a' la M ((b', lb) ::ₘ T) (by
      intro p hp
      rcases Multiset.mem_cons.mp hp with e | e
      · subst e; exact hab
      · have := hbT p e; omega)
    have hx := f5 M (hM _ hpa) (fun p hp => hM p (Multiset.mem_cons_of_mem hp))
    rw [Multiset.map_cons] at f1
    obtain ⟨pb, hpb2, hb2, hS3⟩ := (Multiset.map_eq_cons _ _ _ _).mpr f1
    obtain ⟨b2, lb2⟩ := pb
    simp only [] at hb2
    have e3 := (Multiset.cons_erase hpb2).symm
    generalize S2.erase (b2, lb2) = T2 at *
    subst e3
    subst hb2
    obtain ⟨y, T3, g1, g2, g3, g4, g5, _⟩ := exchange b2 lb2 M T2 (by
      intro p hp
      apply hb
      rw [← hS2, ← hS3]
      exact Multiset.mem_map_of_mem _ hp)
    have hyx := g5 x (f2 _ hpb2) (fun p hp => f2 p (Multiset.mem_cons_of_mem hp))
    rw [kraftM_cons] at f3
    rw [kraftM_cons, kraftM_cons] at hk
    rw [costM_cons, costM_cons] at *
    rw [kraftM_cons] at f3
    simp only [] at *
    -- both get length y
    have hd := kraftM_dvd M y T3 g2
    obtain ⟨q, hq⟩ := hd
    have hpos : 0 < 2 ^ (M - x) := Nat.two_pow_pos _
    have hposy : 0 < 2 ^ (M - y) := Nat.two_pow_pos _
    have hyM : y ≤ M := by omega
    have hMy : 2 ^ M = 2 ^ (M - y) * 2 ^ y := by rw [← Nat.pow_add]; congr 1; omega
    have hk2 : 2 ^ (M - y) * (1 + q) < 2 ^ (M - y) * 2 ^ y := by
      rw [← hMy, Nat.mul_add, ← hq, Nat.mul_one]; omega
    have hk3 : 2 + q ≤ 2 ^ y := by have := Nat.lt_of_mul_lt_mul_left hk2; omega
    have hk4 : 2 ^ (M - y) * (2 + q) ≤ 2 ^ M := by rw [hMy]; exact Nat.mul_le_mul_left _ hk3
    have hy0 : y ≠ 0 := by
      intro e; rw [e, Nat.pow_zero] at hk3; omega
    have hstep : 2 ^ (M - (y - 1)) = 2 ^ (M - y) * 2 := by
      rw [show M - (y - 1) = (M - y) + 1 by omega, Nat.pow_succ]
    have hI := ih ((a' + b2, y - 1) ::ₘ T3) (by
        rw [Multiset.map_cons, g1, hS3, hS2]) (by
        intro p hp
        rcases Multiset.mem_cons.mp hp with e | e
        · subst e; simp only []; omega
        · have := g2 p e; omega) (by
        rw [kraftM_cons]
        simp only []
        rw [hstep, hq, ← Nat.mul_add]
        exact hk4)
    rw [costM_cons] at hI
    simp only [] at hI
    have hmul : (a' + b2) * y = (a' + b2) * (y - 1) + (a' + b2) := by
      obtain ⟨z, rfl⟩ := Nat.exists_eq_succ_of_ne_zero hy0
      simp only [Nat.succ_sub_one, Nat.mul_succ]
    have hxy : a' * y ≤ a' * x := Nat.mul_le_mul_left _ hyx.1
    rw [Nat.add_mul] at hmul
    omega

end Lha
