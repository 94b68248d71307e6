import Mathlib.Algebra.BigOperators.Group.Finset.Basic
import Mathlib.Algebra.BigOperators.Intervals
import Mathlib.Algebra.BigOperators.Ring.Finset
import Mathlib.Algebra.Order.BigOperators.Group.Finset
import Verif.Spec.Code
import Verif.Proof.BitIO
/-!
# Canonical codes: counting form, bounds, prefix-freeness, alignment
-/

namespace Lha

open Spec Finset

/-- Number of symbols below `n` with length `k`. -/
def cnt (len : Nat → Nat) (k n : Nat) : Nat := ∑ c ∈ range n, if len c = k then 1 else 0

/-- Space taken by the lengths `1..k-1`. -/
def cstart (len : Nat → Nat) (n k : Nat) : Nat :=
  ∑ j ∈ range k, if j = 0 then 0 else cnt len j n * 2 ^ (16 - j)

theorem cnt_succ (len : Nat → Nat) (k n : Nat) :
    cnt len k (n + 1) = cnt len k n + if len n = k then 1 else 0 := by
  unfold cnt; rw [sum_range_succ]

theorem cnt_zero (len : Nat → Nat) (k : Nat) : cnt len k 0 = 0 := rfl

theorem cnt_congr {f g : Nat → Nat} (k n : Nat) (h : ∀ c, c < n → f c = g c) : cnt f k n = cnt g k n := by
  unfold cnt
  apply sum_congr rfl
  intro c hc
  rw [h c (mem_range.mp hc)]

theorem cnt_le (len : Nat → Nat) (k n : Nat) : cnt len k n ≤ n := by
  induction n with
  | zero => rfl
  | succ n ih => rw [cnt_succ]; split <;> omega

theorem cnt_mono (len : Nat → Nat) (k : Nat) {m n : Nat} (h : m ≤ n) : cnt len k m ≤ cnt len k n := by
  induction n with
  | zero => have : m = 0 := by omega
            subst this; exact Nat.le_refl _
  | succ n ih =>
    by_cases hm : m = n + 1
    · subst hm; exact Nat.le_refl _
    · rw [cnt_succ]; have := ih (by omega); omega

theorem cnt_lt (len : Nat → Nat) {c n : Nat} (h : c < n) : cnt len (len c) c < cnt len (len c) n := by
  have h1 := cnt_mono len (len c) (show c + 1 ≤ n by omega)
  rw [cnt_succ, if_pos rfl] at h1
  omega

theorem cstart_succ (len : Nat → Nat) (n k : Nat) (hk : k ≠ 0) :
    cstart len n (k + 1) = cstart len n k + cnt len k n * 2 ^ (16 - k) := by
  unfold cstart
  rw [sum_range_succ, if_neg hk]

theorem cstart_one (len : Nat → Nat) (n : Nat) : cstart len n 1 = 0 := by
  simp [cstart]

theorem cstart_mono (len : Nat → Nat) (n : Nat) {a b : Nat} (h : a ≤ b) :
    cstart len n a ≤ cstart len n b := by
  induction b with
  | zero => have : a = 0 := by omega
            subst this; exact Nat.le_refl _
  | succ b ih =>
    by_cases ha : a = b + 1
    · subst ha; exact Nat.le_refl _
    · have := ih (by omega)
      unfold cstart at this ⊢
      rw [sum_range_succ]
      omega

/-- Space of the symbols with length in `1..L-1`, summed symbol by symbol. -/
theorem cstart_eq (len : Nat → Nat) (n L : Nat) :
    cstart len n L = ∑ a ∈ range n, if len a ≠ 0 ∧ len a < L then 2 ^ (16 - len a) else 0 := by
  unfold cstart cnt
  have h1 : ∀ j ∈ range L, (if j = 0 then 0 else (∑ c ∈ range n, if len c = j then 1 else 0) * 2 ^ (16 - j))
      = ∑ c ∈ range n, if j ≠ 0 ∧ len c = j then 2 ^ (16 - j) else 0 := by
    intro j _
    by_cases hj : j = 0
    · simp [hj]
    · rw [if_neg hj, sum_mul]
      apply sum_congr rfl
      intro c _
      by_cases hc : len c = j
      · simp [hc, hj]
      · simp [hc]
  rw [sum_congr rfl h1, sum_comm]
  apply sum_congr rfl
  intro a _
  by_cases ha : len a ≠ 0 ∧ len a < L
  · rw [if_pos ha, sum_eq_single (len a)]
    · simp [ha.1]
    · intro b _ hb
      rw [if_neg]
      intro h
      exact hb h.2.symm
    · intro h
      exact absurd (mem_range.mpr ha.2) h
  · rw [if_neg ha]
    apply sum_eq_zero
    intro j hj
    rw [if_neg]
    intro h
    apply ha
    rw [h.2]
    exact ⟨h.1, mem_range.mp hj⟩

theorem kraft_eq (len : Nat → Nat) (n : Nat) (h : ∀ c, c < n → len c ≤ 16) :
    kraft len n = cstart len n 17 := by
  rw [cstart_eq]
  unfold kraft
  apply sum_congr rfl
  intro c hc
  have := h c (mem_range.mp hc)
  by_cases hz : len c = 0
  · simp [hz]
  · rw [if_neg hz, if_pos ⟨hz, by omega⟩]

theorem canonCode_eq (len : Nat → Nat) (n c : Nat) (hc : c < n) (hl : len c ≠ 0) :
    canonCode len n c = cstart len n (len c) + cnt len (len c) c * 2 ^ (16 - len c) := by
  unfold canonCode
  rw [cstart_eq]
  have e : cnt len (len c) c * 2 ^ (16 - len c) =
      ∑ a ∈ range n, if a < c ∧ len a = len c then 2 ^ (16 - len a) else 0 := by
    unfold cnt
    rw [sum_mul]
    rw [← sum_subset (s₁ := range c) (s₂ := range n)]
    · apply sum_congr rfl
      intro a ha
      have := mem_range.mp ha
      by_cases h : len a = len c
      · simp [h, this]
      · simp [h]
    · intro a ha
      have := mem_range.mp ha
      exact mem_range.mpr (by omega)
    · intro a _ ha
      have : ¬ a < c := fun h => ha (mem_range.mpr h)
      simp [this]
  rw [e, ← sum_add_distrib]
  apply sum_congr rfl
  intro a _
  by_cases h1 : len a < len c
  · by_cases h0 : len a = 0
    · have : ¬ (len a = len c) := by omega
      rw [if_neg (by simp [Precedes, h0]), if_neg (by simp [h0]), if_neg (by simp [this])]
    · have : ¬ (len a = len c) := by omega
      simp [Precedes, h1, h0, this]
  · by_cases h2 : len a = len c
    · by_cases h3 : a < c
      · simp [Precedes, h2, hl, h3]
      · simp [Precedes, h2, h3]
    · simp [Precedes, h1, h2]

/-- The code interval of a symbol ends within the space of its length. -/
theorem canonCode_add_le (len : Nat → Nat) (n c : Nat) (hc : c < n) (hl : len c ≠ 0) :
    canonCode len n c + 2 ^ (16 - len c) ≤ cstart len n (len c + 1) := by
  rw [canonCode_eq len n c hc hl, cstart_succ _ _ _ hl]
  have := cnt_lt len hc
  have h2 : (cnt len (len c) c + 1) * 2 ^ (16 - len c) ≤ cnt len (len c) n * 2 ^ (16 - len c) :=
    Nat.mul_le_mul_right _ this
  rw [Nat.add_mul, Nat.one_mul] at h2
  omega

theorem canonCode_add_le_65536 {len : Nat → Nat} {n c : Nat} (h : Complete len n) (hc : c < n)
    (hl : len c ≠ 0) : canonCode len n c + 2 ^ (16 - len c) ≤ 65536 := by
  have h1 := canonCode_add_le len n c hc hl
  have h2 := cstart_mono len n (show len c + 1 ≤ 17 by have := h.le16 c hc; omega)
  rw [← kraft_eq len n h.le16, h.kraft] at h2
  omega

theorem canonCode_lt {len : Nat → Nat} {n c : Nat} (h : Complete len n) (hc : c < n)
    (hl : len c ≠ 0) : canonCode len n c < 65536 := by
  have h1 := canonCode_add_le_65536 h hc hl
  have := Nat.two_pow_pos (16 - len c)
  omega

/-- Earlier symbols in canonical order occupy earlier intervals. -/
theorem canonCode_order (len : Nat → Nat) {n a b : Nat} (ha : a < n) (hb : b < n) (hlb : len b ≠ 0)
    (hp : Precedes len a b) : canonCode len n a + 2 ^ (16 - len a) ≤ canonCode len n b := by
  obtain ⟨hla, h | ⟨h, hab⟩⟩ := hp
  · have h1 := canonCode_add_le len n a ha hla
    have h2 := cstart_mono len n (show len a + 1 ≤ len b by omega)
    rw [canonCode_eq len n b hb hlb]
    omega
  · rw [canonCode_eq len n a ha hla, canonCode_eq len n b hb hlb, h]
    have := cnt_lt len hab
    rw [h] at this
    have h2 : (cnt len (len b) a + 1) * 2 ^ (16 - len b) ≤ cnt len (len b) b * 2 ^ (16 - len b) :=
      Nat.mul_le_mul_right _ this
    rw [Nat.add_mul, Nat.one_mul] at h2
    omega

theorem cstart_dvd (len : Nat → Nat) (n L : Nat) (hL : L ≤ 17) : 2 ^ (17 - L) ∣ cstart len n L := by
  unfold cstart
  apply dvd_sum
  intro j hj
  have := mem_range.mp hj
  split
  · exact Nat.dvd_zero _
  · apply Dvd.dvd.mul_left
    exact pow_dvd_pow 2 (by omega)

/-- Codes are aligned: only the leading `len c` bits can be non-zero. -/
theorem canonCode_dvd (len : Nat → Nat) (n c : Nat) (hc : c < n) (hl : len c ≠ 0) (h16 : len c ≤ 16) :
    2 ^ (16 - len c) ∣ canonCode len n c := by
  rw [canonCode_eq len n c hc hl]
  apply Nat.dvd_add
  · exact Nat.dvd_trans (pow_dvd_pow 2 (by omega)) (cstart_dvd len n (len c) (by omega))
  · exact Nat.dvd_mul_left _ _

/-- Two different coded symbols have disjoint intervals. -/
theorem canonCode_disjoint (len : Nat → Nat) {n a b : Nat} (ha : a < n) (hb : b < n)
    (hla : len a ≠ 0) (hlb : len b ≠ 0) (hab : a ≠ b) :
    canonCode len n a + 2 ^ (16 - len a) ≤ canonCode len n b ∨
    canonCode len n b + 2 ^ (16 - len b) ≤ canonCode len n a := by
  by_cases h : Precedes len a b
  · exact Or.inl (canonCode_order len ha hb hlb h)
  · right
    apply canonCode_order len hb ha hla
    refine ⟨hlb, ?_⟩
    by_cases h1 : len b < len a
    · exact Or.inl h1
    · right
      have h2 : ¬ len a < len b := fun h' => h ⟨hla, Or.inl h'⟩
      have h3 : len b = len a := by omega
      refine ⟨h3, ?_⟩
      have h4 : ¬ a < b := fun h' => h ⟨hla, Or.inr ⟨h3.symm, h'⟩⟩
      omega

/-- A code word followed by anything, read as a left-aligned 16-bit number, falls in the symbol's
interval. -/
theorem codeword_window (len : Nat → Nat) {n c : Nat} (hc : c < n) (hl : len c ≠ 0)
    (h16 : len c ≤ 16) (hlt : canonCode len n c < 65536) (R : List Bool) :
    canonCode len n c ≤ pv 16 (codeword len n c ++ R) ∧
    pv 16 (codeword len n c ++ R) < canonCode len n c + 2 ^ (16 - len c) := by
  unfold codeword
  have e : (16 : Nat) = len c + (16 - len c) := by omega
  have h1 : pv 16 (bits (len c) (canonCode len n c / 2 ^ (16 - len c)) ++ R)
      = canonCode len n c / 2 ^ (16 - len c) * 2 ^ (16 - len c)
        + pv (16 - len c) R := by
    conv => lhs; rw [e, pv_add]
    rw [show len c + (16 - len c) - len c = 16 - len c by omega]
    rw [pv_bits_lt, List.drop_left' (by simp)]
    rw [Nat.div_lt_iff_lt_mul (Nat.two_pow_pos _), ← Nat.pow_add, ← e]
    simpa using hlt
  rw [h1, Nat.div_mul_cancel (canonCode_dvd len n c hc hl h16)]
  have := pv_lt (16 - len c) R
  omega

/-- No code word is a prefix of another. -/
theorem codeword_prefix_free {len : Nat → Nat} {n a b : Nat} (h : Complete len n) (ha : a < n)
    (hb : b < n) (hla : len a ≠ 0) (hlb : len b ≠ 0) (hp : codeword len n a <+: codeword len n b) :
    a = b := by
  by_contra hab
  obtain ⟨t, ht⟩ := hp
  have wa := codeword_window len ha hla (h.le16 a ha) (canonCode_lt h ha hla) t
  have wb := codeword_window len hb hlb (h.le16 b hb) (canonCode_lt h hb hlb) []
  rw [ht] at wa
  rw [List.append_nil] at wb
  rcases canonCode_disjoint len ha hb hla hlb hab with hd | hd <;> omega

/-- In a complete code every 16-bit window belongs to some symbol. -/
theorem complete_cover {len : Nat → Nat} {n : Nat} (h : Complete len n) (x : Nat) (hx : x < 65536) :
    ∃ c, c < n ∧ len c ≠ 0 ∧ canonCode len n c ≤ x ∧ x < canonCode len n c + 2 ^ (16 - len c) := by
  -- find the length class
  have hk : ∀ K, K ≤ 17 → x < cstart len n K →
      ∃ L, L ≠ 0 ∧ L < K ∧ cstart len n L ≤ x ∧ x < cstart len n (L + 1) := by
    intro K
    induction K with
    | zero => intro _ h0; simp [cstart] at h0
    | succ K ih =>
      intro hK hlt
      by_cases hx2 : x < cstart len n K
      · obtain ⟨L, h1, h2, h3, h4⟩ := ih (by omega) hx2
        exact ⟨L, h1, by omega, h3, h4⟩
      · by_cases hK0 : K = 0
        · subst hK0; simp [cstart] at hlt
        · exact ⟨K, hK0, by omega, by omega, hlt⟩
  have h17 : x < cstart len n 17 := by rw [← kraft_eq len n h.le16, h.kraft]; exact hx
  obtain ⟨L, hL0, hL17, hlo, hhi⟩ := hk 17 (by omega) h17
  rw [cstart_succ _ _ _ hL0] at hhi
  -- the index within the class
  have hpos := Nat.two_pow_pos (16 - L)
  let q := (x - cstart len n L) / 2 ^ (16 - L)
  have hq : q < cnt len L n := by
    apply (Nat.div_lt_iff_lt_mul hpos).mpr
    omega
  have hfind : ∀ m, q < cnt len L m → ∃ c, c < m ∧ len c = L ∧ cnt len L c = q := by
    intro m
    induction m with
    | zero => intro h0; simp [cnt] at h0
    | succ m ih =>
      intro hm
      by_cases h1 : q < cnt len L m
      · obtain ⟨c, h2, h3, h4⟩ := ih h1
        exact ⟨c, by omega, h3, h4⟩
      · rw [cnt_succ] at hm
        by_cases h2 : len m = L
        · rw [if_pos h2] at hm
          exact ⟨m, by omega, h2, by omega⟩
        · rw [if_neg h2] at hm; omega
  obtain ⟨c, hc, hcl, hcq⟩ := hfind n hq
  refine ⟨c, hc, by omega, ?_⟩
  rw [canonCode_eq len n c hc (by omega), hcl, hcq]
  have hdm := Nat.div_add_mod (x - cstart len n L) (2 ^ (16 - L))
  have hml := Nat.mod_lt (x - cstart len n L) hpos
  have : 2 ^ (16 - L) * ((x - cstart len n L) / 2 ^ (16 - L)) = q * 2 ^ (16 - L) := Nat.mul_comm _ _
  omega

end Lha
