import Mathlib.Data.Nat.Bitwise
import Verif.Model.Huf
import Verif.Proof.BitIO
import Verif.Proof.MakeTable
/-!
# Decoding one symbol through the table and the trees
-/

namespace Lha

open Spec

/-- Descent through the trees along the bits `R` found at offset `o` of the bit buffer. -/
theorem treeWalk_ok {left right : Arr} {nchar bb c : Nat} (hc : c < nchar) (hls : 2 * nchar ≤ left.size + 1)
    (hrs : 2 * nchar ≤ right.size + 1) (R : List Bool) : ∀ (o f x : Nat), R ≠ [] → o + R.length ≤ 16 →
    R.length ≤ f → (∀ t (h : t < R.length), bb.testBit (15 - (o + t)) = R[t]) → Walk left right nchar x R c →
    treeWalk left right nchar bb f (2 ^ (15 - o)) x = .ok c := by
  induction R with
  | nil => intro o f x h; exact absurd rfl h
  | cons b R ih =>
    intro o f x _ hlen hf hbits hw
    obtain ⟨w1, w2, w3⟩ := hw
    rw [List.length_cons] at hlen hf
    obtain ⟨f, rfl⟩ : ∃ f', f = f' + 1 := ⟨f - 1, by omega⟩
    have hb0 := hbits 0 (by simp)
    simp only [List.getElem_cons_zero, Nat.add_zero] at hb0
    have hcont : ∀ j, j = (if b then right.get x else left.get x) →
        (if j ≥ nchar then
          if 2 ^ (15 - o) / 2 ≠ 0 then treeWalk left right nchar bb f (2 ^ (15 - o) / 2) j
          else do
            let lj ← rd left j
            if j ≠ lj then treeWalk left right nchar bb f (2 ^ (15 - o) / 2) j else .ok j
        else (.ok j : G Nat)) = .ok c := by
      intro j hj
      rw [← hj] at w3
      cases R with
      | nil =>
        have : j = c := w3
        rw [if_neg (by omega), this]
      | cons b' R' =>
        have h1 : nchar ≤ j := w3.1
        rw [List.length_cons] at hlen hf
        have hp : 2 ^ (15 - o) / 2 = 2 ^ (15 - (o + 1)) := by
          rw [show 15 - o = (15 - (o + 1)) + 1 by omega, Nat.pow_succ]
          omega
        have hpos := Nat.two_pow_pos (15 - (o + 1))
        rw [if_pos h1, hp, if_pos (by omega)]
        apply ih (o + 1) f j (by simp) (by simp; omega) (by simp; omega) _ w3
        intro t ht
        have := hbits (t + 1) (by simp at ht ⊢; omega)
        simp only [List.getElem_cons_succ] at this
        rw [← this]
        congr 1
        omega
    unfold treeWalk
    simp only []
    rw [Nat.and_two_pow, hb0]
    have hpos := Nat.two_pow_pos (15 - o)
    cases b with
    | true =>
      rw [if_pos (by simp), rd_ok (by omega), ok_bind]
      exact hcont _ (by simp)
    | false =>
      rw [if_neg (by simp), rd_ok (by omega), ok_bind]
      exact hcont _ (by simp)

/-- The table resolves symbol `c`: either the degenerate table that always answers `c`, or a table
for a complete code in which `c` has a code word. -/
def Lookup (len : Nat → Nat) (nchar tb : Nat) (table left right : Arr) (c : Nat) : Prop :=
  c < nchar ∧ table.size = 2 ^ tb ∧
  ((len c = 0 ∧ ∀ p, p < 2 ^ tb → table.get p = c) ∨
   (Complete len nchar ∧ len c ≠ 0 ∧ TabOk len nchar tb table left right))

theorem codeword_nil (len : Nat → Nat) (n c : Nat) (h : len c = 0) : codeword len n c = [] := by
  unfold codeword; rw [h]; rfl

theorem pv_codeword_div {len : Nat → Nat} {n c tb : Nat} (hcomp : Complete len n) (hc : c < n) (hl : len c ≠ 0)
    (ht : tb ≤ 16) (S : List Bool) :
    canonCode len n c / 2 ^ (16 - tb) ≤ pv tb (codeword len n c ++ S) ∧
    (len c ≤ tb → pv tb (codeword len n c ++ S) < canonCode len n c / 2 ^ (16 - tb) + 2 ^ (tb - len c)) ∧
    (tb ≤ len c → pv tb (codeword len n c ++ S) = canonCode len n c / 2 ^ (16 - tb)) := by
  have h16 := hcomp.le16 c hc
  obtain ⟨w1, w2⟩ := codeword_window len hc hl h16 (canonCode_lt hcomp hc hl) S
  rw [← pv_div 16 tb _ ht]
  generalize pv 16 (codeword len n c ++ S) = z at w1 w2
  refine ⟨Nat.div_le_div_right w1, ?_, ?_⟩
  · intro hle
    rw [← pow_div_short _ _ _ hle ht]
    obtain ⟨q, hq⟩ := canonCode_dvd len n c hc hl h16
    have hd : 2 ^ (16 - tb) ∣ canonCode len n c + 2 ^ (16 - len c) := by
      rw [hq]
      apply Nat.dvd_add
      · exact Dvd.dvd.mul_right (pow_dvd_pow 2 (by omega)) _
      · exact pow_dvd_pow 2 (by omega)
    obtain ⟨r, hr⟩ := hd
    rw [hr, Nat.mul_div_cancel_left _ (Nat.two_pow_pos _)]
    rw [hr] at w2
    exact Nat.div_lt_of_lt_mul w2
  · intro hle
    have hle2 : 2 ^ (16 - len c) ≤ 2 ^ (16 - tb) := Nat.pow_le_pow_right (by omega) (by omega)
    apply Nat.le_antisymm _ (Nat.div_le_div_right w1)
    obtain ⟨q, hq⟩ := canonCode_dvd len n c hc hl h16
    have hP := Nat.two_pow_pos (16 - len c)
    have h1 : z / 2 ^ (16 - len c) = canonCode len n c / 2 ^ (16 - len c) := by
      rw [hq, Nat.mul_div_cancel_left _ hP]
      rw [hq] at w1 w2
      apply Nat.div_eq_of_lt_le
      · rw [Nat.mul_comm]; exact w1
      · rw [Nat.add_mul, Nat.one_mul, Nat.mul_comm q]; exact w2
    have h2 : ∀ y, y / 2 ^ (16 - tb) = y / 2 ^ (16 - len c) / 2 ^ (len c - tb) := by
      intro y
      rw [Nat.div_div_eq_div_mul, ← Nat.pow_add]
      congr 2
      omega
    rw [h2 z, h1, ← h2]

theorem pv_testBit (n i : Nat) (S : List Bool) (h : i < n) (hi : n - 1 - i < S.length) :
    (pv n S).testBit i = S[n - 1 - i] := by
  induction n generalizing S i with
  | zero => omega
  | succ n ih =>
    cases S with
    | nil => simp at hi
    | cons b S =>
      simp only [pv, List.headD_cons, List.tail_cons]
      have hlt := pv_lt n S
      by_cases hin : i = n
      · subst hin
        rw [Nat.mul_comm, Nat.testBit_two_pow_mul_add _ hlt, if_neg (by omega)]
        simp only [Nat.add_sub_cancel, Nat.sub_self, List.getElem_cons_zero]
        cases b <;> rfl
      · rw [Nat.mul_comm, Nat.testBit_two_pow_mul_add _ hlt, if_pos (by omega)]
        have e : n + 1 - 1 - i = (n - 1 - i) + 1 := by omega
        rw [ih i S (by omega) (by simp at hi; omega)]
        simp only [e, List.getElem_cons_succ]

/-- Result of the direct table access for a window that starts with the code word of `c`. -/
theorem lookup_direct {len : Nat → Nat} {nchar tb : Nat} {table left right : Arr} {c : Nat}
    (h : Lookup len nchar tb table left right c) (ht : tb ≤ 16) (hs : len c ≤ tb) (S : List Bool) :
    table.get (pv tb (codeword len nchar c ++ S)) = c := by
  obtain ⟨hc, _, ⟨h1, h2⟩ | ⟨h1, h2, h3⟩⟩ := h
  · exact h2 _ (pv_lt _ _)
  · obtain ⟨p1, p2, _⟩ := pv_codeword_div h1 hc h2 ht S
    exact h3.short c hc h2 hs _ p1 (p2 hs)

/-- Result of table access and descent for a long code word; the bit buffer is either unshifted
(descent starts at offset `tb`) or shifted by `tb` bits. -/
theorem lookup_long {len : Nat → Nat} {nchar tb : Nat} {table left right : Arr} {c : Nat}
    (h : Lookup len nchar tb table left right c) (ht : tb ≤ 15) (hs : tb < len c)
    (hls : 2 * nchar ≤ left.size + 1) (hrs : 2 * nchar ≤ right.size + 1) (S : List Bool) :
    nchar ≤ table.get (pv tb (codeword len nchar c ++ S)) ∧
    treeWalk left right nchar (pv 16 (codeword len nchar c ++ S)) 1100 (2 ^ (15 - tb))
      (table.get (pv tb (codeword len nchar c ++ S))) = .ok c ∧
    treeWalk left right nchar (pv 16 ((codeword len nchar c ++ S).drop tb)) 1100 32768
      (table.get (pv tb (codeword len nchar c ++ S))) = .ok c := by
  obtain ⟨hc, _, ⟨h1, h2⟩ | ⟨h1, h2, h3⟩⟩ := h
  · omega
  have h16 := h1.le16 c hc
  obtain ⟨_, _, p3⟩ := pv_codeword_div h1 hc h2 (tb := tb) (by omega) S
  rw [p3 (by omega)]
  obtain ⟨l1, l2⟩ := h3.long c hc hs
  have hcl := codeword_length len nchar c
  have hR : ((codeword len nchar c).drop tb).length = len c - tb := by rw [List.length_drop, hcl]
  have hne : (codeword len nchar c).drop tb ≠ [] := by
    intro e; rw [e] at hR; simp at hR; omega
  refine ⟨l1, ?_, ?_⟩
  · apply treeWalk_ok hc hls hrs _ tb 1100 _ hne (by omega) (by omega) _ l2
    intro t htt
    rw [hR] at htt
    rw [pv_testBit 16 _ _ (by omega) (by rw [List.length_append, hcl]; omega), List.getElem_append_left (by omega),
      List.getElem_drop]
    congr 1
    omega
  · apply treeWalk_ok hc hls hrs _ 0 1100 _ hne (by omega) (by omega) _ l2
    intro t htt
    rw [hR] at htt
    rw [List.drop_append_of_le_length (by omega),
      pv_testBit 16 _ _ (by omega) (by rw [List.length_append, hR]; omega), List.getElem_append_left (by omega)]
    congr 1
    omega

/-- Decoding a symbol in the middle of a block. -/
theorem decodeC_ok {d : Dec} {c : Nat} {S : List Bool} {T : List Nat}
    (hb : d.h.blocksize ≠ 0) (hls : d.h.left.size = 1019) (hrs : d.h.right.size = 1019)
    (hcl : d.h.cLen.size = 510) (hbs : d.h.blocksize < 65536)
    (h : Lookup d.h.cLen.get 510 12 d.h.cTable d.h.left d.h.right c)
    (hr : RRep d.r (codeword d.h.cLen.get 510 c ++ S) T) :
    ∃ r', decodeCSt1 d = .ok (c, ⟨{ d.h with blocksize := d.h.blocksize - 1 }, r'⟩) ∧ RRep r' S T := by
  have hbl : (d.h.blocksize + 65535) % 65536 = d.h.blocksize - 1 := by omega
  unfold decodeCSt1
  rw [if_neg hb, ok_bind]
  simp only [hbl]
  have hlen := codeword_length d.h.cLen.get 510 c
  rw [peekbits_spec hr (by omega), rd_ok (by rw [h.2.1]; exact pv_lt _ _), ok_bind]
  by_cases hs : d.h.cLen.get c ≤ 12
  · rw [lookup_direct h (by omega) hs, if_pos h.1, rd_ok (by have := h.1; omega), ok_bind]
    obtain ⟨r', f1, f2⟩ := fillbuf_spec (n := d.h.cLen.get c) hr
    rw [f1, ok_bind]
    rw [List.drop_left' hlen] at f2
    exact ⟨r', rfl, f2⟩
  · obtain ⟨l1, _, l3⟩ := lookup_long h (by omega) (by omega) (by omega) (by omega) S
    rw [if_neg (by omega)]
    obtain ⟨r1, f1, f2⟩ := fillbuf_spec (n := 12) hr
    rw [f1, ok_bind, f2.buf, l3, ok_bind, rd_ok (by have := h.1; omega), ok_bind]
    have h16 : d.h.cLen.get c ≤ 16 := by
      obtain ⟨hc, _, ⟨h1, h2⟩ | ⟨h1, h2, h3⟩⟩ := h
      · omega
      · exact h1.le16 c hc
    obtain ⟨r2, g1, g2⟩ := fillbuf_spec (n := (d.h.cLen.get c + 256 - 12) % 256) f2
    rw [g1, ok_bind]
    rw [List.drop_drop, show 12 + (d.h.cLen.get c + 256 - 12) % 256 = d.h.cLen.get c by omega,
      List.drop_left' hlen] at g2
    exact ⟨r2, rfl, g2⟩

end Lha
