import Verif.Proof.Crc
/-!
# C10: every short corruption of the content changes the checksum
-/

namespace Lha

open Spec

/-- **Bursts.** Two different byte strings of equal length whose bits agree outside some 16
consecutive bit positions get different checksums (from any common starting value). -/
theorem C10_burst :
    ∃ tab, makeCrcTable = .ok tab ∧
      ∀ (init : Nat) (a b : List Nat), IsBytes a → IsBytes b → a.length = b.length → a ≠ b →
        (∃ k, ∀ i, (i < k ∨ k + 16 ≤ i) → (msgBits a)[i]? = (msgBits b)[i]?) →
        calcCrc tab a.length init a ≠ calcCrc tab b.length init b := by
  obtain ⟨tab, h1, h2⟩ := makeCrcTable_ok
  refine ⟨tab, h1, fun init a b ha hb hl hne ⟨k, hk⟩ => ?_⟩
  rw [calcCrc_all h2 a ha, calcCrc_all h2 b hb]
  intro h
  exact crc16_burst init a b ha hb hl hne k hk (Except.ok.inj h)

/-- **Odd errors.** Two byte strings of equal length that differ in an odd number of bits get
different checksums. -/
theorem C10_odd :
    ∃ tab, makeCrcTable = .ok tab ∧
      ∀ (init : Nat) (a b : List Nat), IsBytes a → IsBytes b → a.length = b.length →
        (List.zipWith (· ^^ ·) (msgBits a) (msgBits b)).count true % 2 = 1 →
        calcCrc tab a.length init a ≠ calcCrc tab b.length init b := by
  obtain ⟨tab, h1, h2⟩ := makeCrcTable_ok
  refine ⟨tab, h1, fun init a b ha hb hl hodd => ?_⟩
  rw [calcCrc_all h2 a ha, calcCrc_all h2 b hb]
  intro h
  exact crc16_odd init a b hl hodd (Except.ok.inj h)

/-- Non-vacuity: one flipped byte bit pattern inside a longer message is a burst. -/
example : (∀ i, (i < 8 ∨ 8 + 16 ≤ i) →
      (msgBits [7, 1, 2, 9])[i]? = (msgBits [7, 200, 3, 9])[i]?) ∧ ([7, 1, 2, 9] ≠ [7, 200, 3, 9]) := by
  constructor
  · intro i hi
    by_cases h : i < 32
    · have : ∀ j : Fin 32, (j.val < 8 ∨ 8 + 16 ≤ j.val) →
        (msgBits [7, 1, 2, 9])[j.val]? = (msgBits [7, 200, 3, 9])[j.val]? := by decide +kernel
      exact this ⟨i, h⟩ hi
    · rw [List.getElem?_eq_none (by rw [msgBits_length]; simp; omega),
        List.getElem?_eq_none (by rw [msgBits_length]; simp; omega)]
  · decide

example : (List.zipWith (· ^^ ·) (msgBits [7, 1]) (msgBits [0, 1])).count true % 2 = 1 := by
  decide +kernel

end Lha
