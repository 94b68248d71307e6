import Verif.Proof.MakeLen
/-!
# C06: Huffman code lengths are always a complete code within 16 bits
-/

namespace Lha

open Spec Finset

/-- For every frequency table with at least two used symbols, over any alphabet of at most 510
symbols and whatever the slices contained before, `makeTree` does not fault; used symbols get a
length in `1..16`, unused ones 0; Kraft's equality holds; the codes (left-aligned in 16 bits) are the
canonical ones, have no stray bits and are prefix-free; the frequencies are preserved and the root's
frequency is the number of symbols counted (modulo `2^16`). -/
theorem C06_complete_code (nchar : Nat) (freq bitlen code left right : Arr) (hn : nchar ≤ 510)
    (hf : 2 * nchar ≤ freq.size + 1) (hb : nchar ≤ bitlen.size) (hc : nchar ≤ code.size)
    (hl : 2 * nchar ≤ left.size + 1) (hr : 2 * nchar ≤ right.size + 1)
    (a b : Nat) (ha : a < nchar) (hb' : b < nchar) (hab : a ≠ b) (hfa : freq.get a ≠ 0)
    (hfb : freq.get b ≠ 0) :
    ∃ r, makeTree nchar freq bitlen code left right = .ok r ∧
      (∀ c, c < nchar → freq.get c ≠ 0 → 1 ≤ r.bitlen.get c ∧ r.bitlen.get c ≤ 16) ∧
      (∀ c, c < nchar → freq.get c = 0 → r.bitlen.get c = 0) ∧
      kraft r.bitlen.get nchar = 65536 ∧
      (∀ c, c < nchar → freq.get c ≠ 0 →
        r.code.get c = canonCode r.bitlen.get nchar c ∧ r.code.get c < 65536 ∧
        2 ^ (16 - r.bitlen.get c) ∣ r.code.get c) ∧
      (∀ c d, c < nchar → d < nchar → freq.get c ≠ 0 → freq.get d ≠ 0 →
        bits (r.bitlen.get c) (r.code.get c / 2 ^ (16 - r.bitlen.get c)) <+:
          bits (r.bitlen.get d) (r.code.get d / 2 ^ (16 - r.bitlen.get d)) → c = d) ∧
      (∀ c, c < nchar → r.freq.get c = freq.get c) ∧ nchar ≤ r.root ∧
      r.freq.get r.root = (∑ c ∈ range nchar, freq.get c) % 65536 := by
  obtain ⟨r, h1, h2⟩ := makeTree_ok (nchar := nchar) (freq := freq) (bitlen := bitlen) (code := code)
    (left := left) (right := right) ⟨by omega, hn, hf, hb, hc, hl, hr⟩
  have hcard : 2 ≤ (usedM freq nchar).card := by
    have hma : a ∈ usedM freq nchar := Multiset.mem_filter.mpr ⟨Multiset.mem_range.mpr ha, hfa⟩
    have hmb : b ∈ usedM freq nchar := Multiset.mem_filter.mpr ⟨Multiset.mem_range.mpr hb', hfb⟩
    obtain ⟨t, ht⟩ := Multiset.exists_cons_of_mem hma
    rw [ht] at hmb
    have hbt : b ∈ t := by
      rcases Multiset.mem_cons.mp hmb with e | e
      · exact absurd e.symm hab
      · exact e
    have := Multiset.card_pos_iff_exists_mem.mpr ⟨b, hbt⟩
    rw [ht, Multiset.card_cons]
    omega
  obtain ⟨m1, m2, m3, m4, m5, m6⟩ := h2.multi hcard
  have hne : ∀ c, c < nchar → freq.get c ≠ 0 → r.bitlen.get c ≠ 0 := fun c hc h h0 =>
    h ((m4 c hc).mp h0)
  have hcode : ∀ c, c < nchar → freq.get c ≠ 0 → r.code.get c = canonCode r.bitlen.get nchar c := by
    intro c hc h
    rw [m6 c hc, if_neg (hne c hc h)]
  refine ⟨r, h1, ?_, fun c hc h => (m4 c hc).mpr h, m5.kraft, ?_, ?_, h2.fsame, m1, m3⟩
  · intro c hc h
    have := hne c hc h
    have := m5.le16 c hc
    omega
  · intro c hc h
    rw [hcode c hc h]
    exact ⟨rfl, canonCode_lt m5 hc (hne c hc h), canonCode_dvd _ _ _ hc (hne c hc h) (m5.le16 c hc)⟩
  · intro c d hc hd hfc hfd hp
    rw [hcode c hc hfc, hcode d hd hfd] at hp
    exact codeword_prefix_free m5 hc hd (hne c hc hfc) (hne d hd hfd) hp

/-- With fewer than two used symbols `makeTree` does not fault, assigns no code (length and code word
0), and its result is the
only used symbol (0 if there is none); the encoder then writes the symbol once instead of a code. -/
theorem C06_single (nchar : Nat) (freq bitlen code left right : Arr) (h1 : 1 ≤ nchar) (hn : nchar ≤ 510)
    (hf : 2 * nchar ≤ freq.size + 1) (hb : nchar ≤ bitlen.size) (hc : nchar ≤ code.size)
    (hl : 2 * nchar ≤ left.size + 1) (hr : 2 * nchar ≤ right.size + 1) (x : Nat) (hx : x < nchar)
    (honly : ∀ c, c < nchar → freq.get c ≠ 0 → c = x) :
    ∃ r, makeTree nchar freq bitlen code left right = .ok r ∧
      (∀ c, c < nchar → r.bitlen.get c = 0) ∧ r.code.get r.root = 0 ∧ r.freq = freq ∧
      (freq.get x ≠ 0 → r.root = x) ∧ (freq.get x = 0 → r.root = 0) := by
  obtain ⟨r, e1, e2⟩ := makeTree_ok (nchar := nchar) (freq := freq) (bitlen := bitlen) (code := code)
    (left := left) (right := right) ⟨h1, hn, hf, hb, hc, hl, hr⟩
  have hall : ∀ y ∈ usedM freq nchar, y = x := by
    intro y hy
    obtain ⟨h1, h2⟩ := Multiset.mem_filter.mp hy
    exact honly y (Multiset.mem_range.mp h1) h2
  have hnd : (usedM freq nchar).Nodup := Multiset.Nodup.filter _ (Multiset.nodup_range _)
  have hle : (usedM freq nchar).card < 2 := by
    have := Multiset.nodup_iff_count_le_one.mp hnd x
    rw [Multiset.eq_replicate_of_mem hall] at this ⊢
    simp at this
    simp
    omega
  obtain ⟨s1, s2, s3, s4, s5⟩ := e2.single hle
  refine ⟨r, e1, s1, s5, s3, ?_, ?_⟩
  · intro hfx
    have hm : x ∈ usedM freq nchar := Multiset.mem_filter.mpr ⟨Multiset.mem_range.mpr hx, hfx⟩
    rcases s4 with h | ⟨h, _⟩
    · rw [h] at hm; exact (Multiset.mem_singleton.mp hm).symm
    · rw [h] at hm; simp at hm
  · intro hfx
    rcases s4 with h | ⟨_, h⟩
    · have hm : r.root ∈ usedM freq nchar := by rw [h]; simp
      have := hall _ hm
      have h2 := (Multiset.mem_filter.mp hm).2
      rw [this] at h2
      exact absurd hfx h2
    · exact h

/-- Non-vacuity: an alphabet of 20 symbols with exponentially growing frequencies, for which plain
Huffman lengths exceed 16 and the adjustment loop runs. -/
example : ∃ (freq : Arr), 2 * 20 ≤ freq.size + 1 ∧ freq.get 0 ≠ 0 ∧ freq.get 19 ≠ 0 ∧
    (makeTree 20 freq (Arr.mk' 20 7) (Arr.mk' 20 9) (Arr.mk' 39 3) (Arr.mk' 39 4)).toOption.map
      (fun r => (r.bitlen.get 0, r.bitlen.get 19)) = some (16, 1) :=
  ⟨((List.range 20).foldl (fun (p : Arr × Nat × Nat) i => (p.1.upd i p.2.1, p.2.2, p.2.1 + p.2.2))
    (Arr.mk' 39 0, 1, 1)).1, by decide +kernel⟩

/-- Frequencies with a single used letter: the hypotheses of `C06_single`. -/
example : ∃ freq : Arr, 2 * 5 ≤ freq.size + 1 ∧ freq.get 3 ≠ 0 ∧ ∀ c, c < 5 → freq.get c ≠ 0 → c = 3 :=
  ⟨(Arr.mk' 9 0).upd 3 7, by decide, by decide, by decide⟩

end Lha
