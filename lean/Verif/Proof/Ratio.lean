import Verif.Model.ListText
import Mathlib.Tactic.Linarith
import Mathlib.Tactic.Ring
/-!
# Rounding: the ratio that a listing shows
-/

namespace Lha

/-- `nearest` is at most one half away. -/
theorem nearest_le (a : Nat) {b : Nat} (hb : 0 < b) : 2 * (nearest a b * b) ≤ 2 * a + b ∧ 2 * a ≤ 2 * (nearest a b * b) + b := by
  have h1 := Nat.div_add_mod a b
  have h2 := Nat.mod_lt a hb
  have e : b * (a / b) = a / b * b := Nat.mul_comm _ _
  have e' : (a / b + 1) * b = a / b * b + b := by ring
  unfold nearest
  simp only []
  split
  · constructor <;> omega
  · split
    · rw [e']; constructor <;> omega
    · split
      · constructor <;> omega
      · rw [e']; constructor <;> omega

theorem nearest_mul (m : Nat) {b : Nat} (hb : 0 < b) : nearest (m * b) b = m := by
  unfold nearest
  simp only [Nat.mul_div_cancel _ hb, Nat.mul_mod_left]
  rw [if_pos (by omega)]

/-- A whole number below 2^53 is a `float64`. -/
theorem float_exact {m d : Nat} (hd : 0 < d) (hm : m < 2 ^ 53) : ∃ e, 0 < e ∧ float (m * d) d = (m * e, e) := by
  unfold float
  by_cases h0 : m = 0
  · subst h0
    exact ⟨1, by omega, by simp⟩
  · have hpos : m * d ≠ 0 := Nat.mul_ne_zero h0 (by omega)
    rw [if_neg hpos, if_pos (Nat.le_mul_of_pos_left d (by omega))]
    simp only [Nat.mul_div_cancel _ hd]
    have hl : Nat.log2 m < 53 := (Nat.log2_lt h0).2 hm
    split
    · rename_i h52
      have : Nat.log2 m - 52 = 0 := by omega
      rw [this]
      refine ⟨1, by omega, ?_⟩
      rw [Nat.pow_zero, Nat.mul_one, Nat.mul_one, nearest_mul m hd, Nat.mul_one]
    · refine ⟨2 ^ (52 - Nat.log2 m), by positivity, ?_⟩
      rw [show m * d * 2 ^ (52 - Nat.log2 m) = m * 2 ^ (52 - Nat.log2 m) * d by ring, nearest_mul _ hd]

/-- The relative error of a `float64` is at most 2^-53. -/
theorem float_le (a : Nat) {b : Nat} (hb : 0 < b) : 0 < (float a b).2 ∧ (float a b).1 * b * 2 ^ 53 ≤ a * (float a b).2 * (2 ^ 53 + 1) ∧
    a * (float a b).2 * 2 ^ 53 ≤ (float a b).1 * b * 2 ^ 53 + a * (float a b).2 := by
  unfold float
  by_cases h0 : a = 0
  · subst h0
    simp
  · rw [if_neg h0]
    split
    · rename_i hba
      simp only []
      have hq : a / b ≠ 0 := by
        have := Nat.div_pos hba hb
        omega
      have hl : 2 ^ Nat.log2 (a / b) ≤ a / b := Nat.log2_self_le hq
      have hl2 : 2 ^ Nat.log2 (a / b) * b ≤ a := (Nat.mul_le_mul_right b hl).trans (Nat.div_mul_le_self a b)
      split
      · rename_i h52
        generalize Nat.log2 (a / b) = l at *
        have e : 2 ^ l = 2 ^ (l - 52) * 2 ^ 52 := by rw [← Nat.pow_add]; congr 1; omega
        generalize hu : 2 ^ (l - 52) = u at *
        have hup : 0 < u := by rw [← hu]; positivity
        obtain ⟨n1, n2⟩ := nearest_le a (b := b * u) (by positivity)
        generalize nearest a (b * u) = N at *
        rw [e] at hl2
        have e2 : N * (b * u) = N * u * b := by ring
        rw [e2] at n1 n2
        refine ⟨by omega, ?_, ?_⟩ <;> nlinarith
      · rename_i h52
        generalize Nat.log2 (a / b) = l at *
        have e : 2 ^ l * 2 ^ (52 - l) = 2 ^ 52 := by rw [← Nat.pow_add]; congr 1; omega
        generalize hu : 2 ^ (52 - l) = u at *
        have hup : 0 < u := by rw [← hu]; positivity
        obtain ⟨n1, n2⟩ := nearest_le (a * u) hb
        generalize nearest (a * u) b = N at *
        have h3 : 2 ^ 52 * b ≤ a * u := by
          calc 2 ^ 52 * b = 2 ^ l * b * u := by rw [← e]; ring
            _ ≤ a * u := Nat.mul_le_mul_right u hl2
        refine ⟨hup, ?_, ?_⟩ <;> nlinarith
    · rename_i hba
      simp only []
      have hq : b / a ≠ 0 := by
        have := Nat.div_pos (Nat.le_of_lt (Nat.lt_of_not_le hba)) (Nat.pos_of_ne_zero h0)
        omega
      have key : b ≤ a * 2 ^ (if a * 2 ^ Nat.log2 (b / a) = b then Nat.log2 (b / a) else Nat.log2 (b / a) + 1) := by
        split
        · rename_i h; omega
        · have h1 : b / a < 2 ^ (Nat.log2 (b / a) + 1) := Nat.lt_log2_self
          have h2 := (Nat.div_lt_iff_lt_mul (Nat.pos_of_ne_zero h0)).1 h1
          rw [Nat.mul_comm] at h2
          exact h2.le
      generalize (if a * 2 ^ Nat.log2 (b / a) = b then Nat.log2 (b / a) else Nat.log2 (b / a) + 1) = s at *
      have e : 2 ^ (52 + s) = 2 ^ 52 * 2 ^ s := Nat.pow_add 2 52 s
      rw [e]
      generalize hu : 2 ^ s = u at *
      have hup : 0 < u := by rw [← hu]; positivity
      obtain ⟨n1, n2⟩ := nearest_le (a * (2 ^ 52 * u)) hb
      generalize nearest (a * (2 ^ 52 * u)) b = N at *
      refine ⟨by positivity, ?_, ?_⟩ <;> nlinarith

/-- The tenths of a percent shown are the nearest ones. -/
theorem tenths_le {p o : Nat} (hp : p < 2 ^ 42) (ho : 0 < o) (ho' : o < 2 ^ 53) :
    2 * (tenths p o * o) ≤ 2 * (1000 * p) + o ∧ 2 * (1000 * p) ≤ 2 * (tenths p o * o) + o := by
  unfold tenths
  simp only []
  obtain ⟨e1, h1, f1⟩ := float_exact (m := p) (d := 1) (by omega) (by omega)
  rw [Nat.mul_one] at f1
  rw [f1]
  simp only []
  obtain ⟨e2, h2, f2⟩ := float_exact (m := 100 * p) (d := e1) h1 (by omega)
  rw [show p * e1 * 100 = 100 * p * e1 by ring, f2]
  simp only []
  obtain ⟨e3, h3, f3⟩ := float_exact (m := o) (d := 1) (by omega) ho'
  rw [Nat.mul_one] at f3
  rw [f3]
  simp only []
  have hb : 0 < e2 * (o * e3) := by positivity
  obtain ⟨b1, b2, b3⟩ := float_le (100 * p * e2 * e3) hb
  generalize float (100 * p * e2 * e3) (e2 * (o * e3)) = q at *
  obtain ⟨n, d⟩ := q
  simp only [] at b1 b2 b3 ⊢
  obtain ⟨t1, t2⟩ := nearest_le (10 * n) b1
  generalize nearest (10 * n) d = T at *
  have hc : 0 < e2 * e3 := by positivity
  have b2' : n * o * 2 ^ 53 ≤ 100 * p * d * (2 ^ 53 + 1) := by
    refine Nat.le_of_mul_le_mul_left ?_ hc
    calc e2 * e3 * (n * o * 2 ^ 53) = n * (e2 * (o * e3)) * 2 ^ 53 := by ring
      _ ≤ _ := b2
      _ = _ := by ring
  have b3' : 100 * p * d * 2 ^ 53 ≤ n * o * 2 ^ 53 + 100 * p * d := by
    refine Nat.le_of_mul_le_mul_left ?_ hc
    calc e2 * e3 * (100 * p * d * 2 ^ 53) = 100 * p * e2 * e3 * d * 2 ^ 53 := by ring
      _ ≤ _ := b3
      _ = _ := by ring
  have hd : 2000 * p * d < 2 ^ 53 * d := Nat.mul_lt_mul_of_pos_right (by omega) b1
  have t1' := Nat.mul_le_mul_right o t1
  have t2' := Nat.mul_le_mul_right o t2
  constructor
  · have : d * (2 * (T * o)) < d * (2 * (1000 * p) + o + 1) := by nlinarith
    have := Nat.lt_of_mul_lt_mul_left this
    omega
  · have : d * (2 * (1000 * p)) < d * (2 * (T * o) + o + 1) := by nlinarith
    have := Nat.lt_of_mul_lt_mul_left this
    omega

end Lha
