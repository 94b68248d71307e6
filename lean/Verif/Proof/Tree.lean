import Verif.Model.Huf
import Verif.Proof.MakeLen
import Verif.Proof.Lookup
/-!
# `makeTree` in the form the block coder uses; writing a symbol
-/

namespace Lha

open Spec Finset

/-- What the callers of `makeTree` need. -/
structure TreeUse (nchar : Nat) (freq bitlen code left right : Arr) (r : TreeRes) : Prop where
  bsize : r.bitlen.size = bitlen.size
  csize : r.code.size = code.size
  fsize : r.freq.size = freq.size
  lsize : r.left.size = left.size
  rsize : r.right.size = right.size
  fsame : ∀ c, c < nchar → r.freq.get c = freq.get c
  bout : ∀ c, nchar ≤ c → r.bitlen.get c = bitlen.get c
  cases : (nchar ≤ r.root ∧ r.root < 2 * nchar - 1 ∧ Complete r.bitlen.get nchar ∧
      (∀ c, c < nchar → (r.bitlen.get c = 0 ↔ freq.get c = 0)) ∧
      r.freq.get r.root = (∑ c ∈ range nchar, freq.get c) % 65536) ∨
    (r.root < nchar ∧ (∀ c, c < nchar → r.bitlen.get c = 0) ∧
      (∀ c, c < nchar → freq.get c ≠ 0 → c = r.root) ∧
      r.freq.get r.root = ∑ c ∈ range nchar, freq.get c)
  sym : ∀ c, c < nchar → freq.get c ≠ 0 → r.bitlen.get c ≤ 16 ∧ r.code.get c < 65536 ∧
    r.code.get c % 2 ^ (16 - r.bitlen.get c) = 0 ∧
    bits (r.bitlen.get c) (r.code.get c / 2 ^ (16 - r.bitlen.get c)) = codeword r.bitlen.get nchar c

theorem makeTree_use {nchar : Nat} {freq bitlen code left right : Arr}
    (hz : TreeSizes nchar freq bitlen code left right) :
    ∃ r, makeTree nchar freq bitlen code left right = .ok r ∧
      TreeUse nchar freq bitlen code left right r := by
  obtain ⟨r, h1, h2⟩ := makeTree_ok hz
  refine ⟨r, h1, ?_⟩
  refine ⟨h2.bsize, h2.csize, h2.fsize, h2.lsize, h2.rsize, h2.fsame, h2.bout, ?_, ?_⟩
  · by_cases hcard : 2 ≤ (usedM freq nchar).card
    · obtain ⟨m1, m2, m3, m4, m5, _⟩ := h2.multi hcard
      exact Or.inl ⟨m1, m2, m5, m4, m3⟩
    · obtain ⟨s1, s2, s3, s4, s5⟩ := h2.single (by omega)
      have honly : ∀ c, c < nchar → freq.get c ≠ 0 → c = r.root := by
        intro c hc hf
        have hm : c ∈ usedM freq nchar := Multiset.mem_filter.mpr ⟨Multiset.mem_range.mpr hc, hf⟩
        rcases s4 with h | ⟨h, _⟩
        · rw [h] at hm; exact Multiset.mem_singleton.mp hm
        · rw [h] at hm; simp at hm
      refine Or.inr ⟨s2, s1, honly, ?_⟩
      rw [s3]
      symm
      apply Finset.sum_eq_single_of_mem r.root (mem_range.mpr s2)
      intro c hc hne
      by_contra hf
      exact hne (honly c (mem_range.mp hc) hf)
  · intro c hc hf
    by_cases hcard : 2 ≤ (usedM freq nchar).card
    · obtain ⟨m1, m2, m3, m4, m5, m6⟩ := h2.multi hcard
      have hl : r.bitlen.get c ≠ 0 := fun e => hf ((m4 c hc).mp e)
      have h16 := m5.le16 c hc
      rw [m6 c hc, if_neg hl]
      exact ⟨h16, canonCode_lt m5 hc hl, Nat.mod_eq_zero_of_dvd (canonCode_dvd _ _ _ hc hl h16), rfl⟩
    · obtain ⟨s1, s2, s3, s4, s5⟩ := h2.single (by omega)
      have hcr : c = r.root := by
        have hm : c ∈ usedM freq nchar := Multiset.mem_filter.mpr ⟨Multiset.mem_range.mpr hc, hf⟩
        rcases s4 with h | ⟨h, _⟩
        · rw [h] at hm; exact Multiset.mem_singleton.mp hm
        · rw [h] at hm; simp at hm
      have h0 := s1 c hc
      rw [codeword_nil _ _ _ h0, h0, hcr, s5]
      exact ⟨by omega, by omega, by simp, rfl⟩

/-- `putSym` appends the code word. -/
theorem putSym_ok {nchar : Nat} {freq bitlen code left right : Arr} {r : TreeRes}
    (hz : TreeSizes nchar freq bitlen code left right)
    (h : TreeUse nchar freq bitlen code left right r) {c : Nat} (hc : c < nchar) (hf : freq.get c ≠ 0)
    {w : BW} {W : List Bool} (hw : WRep w W) :
    ∃ w', putSym r.bitlen r.code c w = .ok w' ∧ WRep w' (W ++ codeword r.bitlen.get nchar c) ∧
      w'.origsize = w.origsize ∧ (w.unp = true → w'.unp = true) := by
  obtain ⟨h1, h2, h3, h4⟩ := h.sym c hc hf
  have := h.bsize
  have := h.csize
  have := hz.bitlen
  have := hz.code
  unfold putSym
  rw [rd_ok (by omega), ok_bind, rd_ok (by omega), ok_bind]
  obtain ⟨w', e1, e2, e3, e4⟩ := putcode_spec hw h1 h2 h3
  rw [h4] at e2
  exact ⟨w', e1, e2, e3, e4⟩

theorem canonCode_congr {f g : Nat → Nat} {n c : Nat} (h : ∀ x, x < n → f x = g x) (hc : c < n) :
    canonCode f n c = canonCode g n c := by
  unfold canonCode
  apply sum_congr rfl
  intro a ha
  have : Precedes f a c ↔ Precedes g a c := by
    unfold Precedes
    rw [h a (mem_range.mp ha), h c hc]
  by_cases hp : Precedes f a c
  · rw [if_pos hp, if_pos (this.mp hp), h a (mem_range.mp ha)]
  · rw [if_neg hp, if_neg (fun e => hp (this.mpr e))]

theorem codeword_congr {f g : Nat → Nat} {n c : Nat} (h : ∀ x, x < n → f x = g x) (hc : c < n) :
    codeword f n c = codeword g n c := by
  unfold codeword
  rw [canonCode_congr h hc, h c hc]

theorem complete_congr {f g : Nat → Nat} {n : Nat} (h : ∀ x, x < n → f x = g x) (hf : Complete f n) :
    Complete g n := by
  refine ⟨fun c hc => by rw [← h c hc]; exact hf.le16 c hc, ?_⟩
  rw [← hf.kraft]
  unfold kraft
  apply sum_congr rfl
  intro c hc
  rw [h c (mem_range.mp hc)]

/-- The decoder's table `(la, table, left, right)` resolves all symbols satisfying `used` with the code
words of `len`. -/
def TabFor (len : Nat → Nat) (nchar tb : Nat) (la table left right : Arr) (used : Nat → Prop) : Prop :=
  ∀ c, c < nchar → used c → Lookup la.get nchar tb table left right c ∧
    codeword la.get nchar c = codeword len nchar c

end Lha
