import Verif.Proof.PtLen
import Mathlib.Data.Nat.Size
/-!
# C07: the decoding table agrees with the canonical code
-/

namespace Lha

open Spec Finset

/-- For every complete vector of code lengths over at most 510 symbols and whatever the table and the
shared trees contained before, `makeTable` succeeds, and for **every** 16-bit window `w` there is a
symbol `c` whose canonical code word starts the window; the direct table entry is `c` if the code is
at most `tb` bits long, otherwise it leads into the trees and the descent along the following bits of
the window ends at `c`, without out-of-range access. -/
theorem C07_windows (nchar tb : Nat) (bitlen table left right : Arr) (hcomp : Complete bitlen.get nchar)
    (hn : nchar ≤ 510) (htb : tb = 8 ∨ tb = 12) (hnt : nchar < 2 ^ (tb + 1)) (hb : nchar ≤ bitlen.size)
    (hts : table.size = 2 ^ tb) (hls : left.size = 1019) (hrs : right.size = 1019) :
    ∃ t, makeTable nchar bitlen tb table left right = .ok (true, t) ∧
      ∀ w, w < 65536 → ∃ c, c < nchar ∧ bitlen.get c ≠ 0 ∧
        codeword bitlen.get nchar c = (bits 16 w).take (bitlen.get c) ∧
        (bitlen.get c ≤ tb → rd t.table (w / 2 ^ (16 - tb)) = .ok c) ∧
        (tb < bitlen.get c → ∃ x, rd t.table (w / 2 ^ (16 - tb)) = .ok x ∧ nchar ≤ x ∧
          treeWalk t.left t.right nchar w 1100 (2 ^ (15 - tb)) x = .ok c) := by
  obtain ⟨t, h1, h2, h3⟩ := makeTable_ok nchar bitlen tb table left right hcomp (by omega) hn hnt hb hts
    (by omega) (by omega)
  refine ⟨t, h1, ?_⟩
  intro w hw
  obtain ⟨c, c1, c2, c3, c4⟩ := complete_cover hcomp w hw
  have h16 := hcomp.le16 c c1
  have hcw := window_codeword c1 c2 h16 c3 c4
  have htake : codeword bitlen.get nchar c = (bits 16 w).take (bitlen.get c) := by
    rw [bits_take 16 _ _ h16, hcw]
  have hlk : Lookup bitlen.get nchar tb t.table t.left t.right c := ⟨c1, h2.size, Or.inr ⟨hcomp, c2, h2⟩⟩
  have hspl : bits 16 w = codeword bitlen.get nchar c ++ (bits 16 w).drop (bitlen.get c) := by
    rw [htake, List.take_append_drop]
  have hw16 : pv 16 (codeword bitlen.get nchar c ++ (bits 16 w).drop (bitlen.get c)) = w := by
    rw [← hspl]
    have := pv_bits_lt 16 w [] hw
    rwa [List.append_nil] at this
  have hwtb : w / 2 ^ (16 - tb) = pv tb (codeword bitlen.get nchar c ++ (bits 16 w).drop (bitlen.get c)) := by
    rw [← pv_div 16 tb _ (by omega), hw16]
  have hrd : rd t.table (w / 2 ^ (16 - tb)) = .ok (t.table.get (w / 2 ^ (16 - tb))) := by
    apply rd_ok
    rw [h2.size, hwtb]
    exact pv_lt _ _
  refine ⟨c, c1, c2, htake, ?_, ?_⟩
  · intro hle
    rw [hrd, hwtb, lookup_direct hlk (by omega) hle]
  · intro hlt
    obtain ⟨l1, l2, _⟩ := lookup_long hlk (by omega) hlt (by rw [h3.lsize]; simp only []; omega)
      (by rw [h3.rsize]; simp only []; omega) ((bits 16 w).drop (bitlen.get c))
    rw [← hwtb, hw16] at l2
    rw [← hwtb] at l1
    exact ⟨_, hrd, l1, l2⟩

/-- Decoding a letter or length: if the tables were built by `makeTable` from complete lengths and the
stream continues with the code word of `c`, then `decodeCSt1` returns `c` and consumes exactly that
code word. -/
theorem C07_decode_letter (h : Hf) (hok : HfOk h) (hcomp : Complete h.cLen.get 510) :
    ∃ t, makeTable 510 h.cLen 12 h.cTable h.left h.right = .ok (true, t) ∧
      ∀ (b c : Nat) (r : BR) (S : List Bool) (T : List Nat), 0 < b → b < 65536 → c < 510 → h.cLen.get c ≠ 0 →
        RRep r (codeword h.cLen.get 510 c ++ S) T →
        ∃ h' r', decodeCSt1 ⟨{ h with cTable := t.table, left := t.left, right := t.right, blocksize := b }, r⟩
          = .ok (c, ⟨h', r'⟩) ∧ h'.blocksize = b - 1 ∧ RRep r' S T := by
  obtain ⟨t, h1, h2, h3⟩ := makeTable_ok 510 h.cLen 12 h.cTable h.left h.right hcomp (by omega) (by omega)
    (by omega) (by rw [hok.cLen]) hok.cTable (by rw [hok.left]) (by rw [hok.right])
  refine ⟨t, h1, ?_⟩
  intro b c r S T hb hb2 hc hl hr
  obtain ⟨r', e1, e2⟩ := decodeC_ok
    (d := ⟨{ h with cTable := t.table, left := t.left, right := t.right, blocksize := b }, r⟩) (c := c) (S := S) (T := T)
    (by simp only []; omega) (by simp only []; rw [h3.lsize]; exact hok.left)
    (by simp only []; rw [h3.rsize]; exact hok.right) hok.cLen hb2 ⟨hc, h2.size, Or.inr ⟨hcomp, hl, h2⟩⟩ hr
  exact ⟨_, r', e1, rfl, e2⟩

/-- Decoding a distance: if the small table was built by `makeTable` from complete lengths and the
stream continues with the code word of the number of significant bits of `p` and the remaining bits of
`p`, then `decodePSt1` returns `p` and consumes exactly these bits. -/
theorem C07_decode_distance (h : Hf) (hok : HfOk h) (hnp : h.np ≤ 17) (hcomp : Complete h.ptLen.get h.np) :
    ∃ t, makeTable h.np h.ptLen 8 h.ptTable h.left h.right = .ok (true, t) ∧
      ∀ (p : Nat) (r : BR) (S : List Bool) (T : List Nat), p < 65536 → Nat.size p < h.np →
        h.ptLen.get (Nat.size p) ≠ 0 →
        RRep r (codeword h.ptLen.get h.np (Nat.size p) ++ (bits (Nat.size p - 1) p ++ S)) T →
        ∃ h' r', decodePSt1 ⟨{ h with ptTable := t.table, left := t.left, right := t.right }, r⟩
          = .ok (p, ⟨h', r'⟩) ∧ RRep r' S T := by
  obtain ⟨t, h1, h2, h3⟩ := makeTable_ok h.np h.ptLen 8 h.ptTable h.left h.right hcomp (by omega) (by omega)
    (by omega) (by rw [hok.ptLen]; omega) hok.ptTable (by rw [hok.left]; omega) (by rw [hok.right]; omega)
  refine ⟨t, h1, ?_⟩
  intro p r S T hp hs hl hr
  have hbl : Nat.size p = bitLen p := by
    obtain ⟨b1, b2, b3⟩ := bitLen_spec p hp
    apply Nat.le_antisymm
    · exact Nat.size_le.mpr b2
    · by_cases hz : bitLen p = 0
      · omega
      · have h4 := Nat.lt_size.mpr (b3 hz)
        omega
  rw [hbl] at hs hl hr
  obtain ⟨r', e1, e2⟩ := decodeP_ok (d := ⟨{ h with ptTable := t.table, left := t.left, right := t.right }, r⟩)
    (p := p) (S := S) (T := T) hp (by simp only []; rw [h3.lsize]; exact hok.left)
    (by simp only []; rw [h3.rsize]; exact hok.right) hok.ptLen hnp ⟨hs, h2.size, Or.inr ⟨hcomp, hl, h2⟩⟩ hr
  exact ⟨_, r', e1, e2⟩

/-- Lengths `1, 2, …, 15, 16, 16`: a complete code with words longer than both table widths. -/
def stairLen : Arr :=
  ((List.range 17).foldl (fun (a : Arr) i => a.upd i (min (i + 1) 16)) (Arr.mk' 510 0))

/-- Non-vacuity: the staircase code is complete over 17 and over 510 symbols. -/
example : Complete stairLen.get 17 ∧ Complete stairLen.get 510 ∧ stairLen.size = 510 ∧
    stairLen.get 16 = 16 := by
  refine ⟨⟨by decide +kernel, by decide +kernel⟩, ⟨by decide +kernel, by decide +kernel⟩, by decide +kernel,
    by decide +kernel⟩

/-- Non-vacuity: a fresh decoder state has the sizes assumed. -/
example : HfOk Hf.fresh := by constructor <;> rfl

/-- A state meeting the hypotheses of `C07_decode_letter` and `C07_decode_distance`. -/
example : let h : Hf := { Hf.fresh with cLen := stairLen, ptLen := Arr.mk' 128 4, np := 16 }
    HfOk h ∧ Complete h.cLen.get 510 ∧ h.np ≤ 17 ∧ Complete h.ptLen.get h.np := by
  refine ⟨by constructor <;> rfl, ⟨by decide +kernel, by decide +kernel⟩, by decide, ⟨by decide +kernel, by decide +kernel⟩⟩

end Lha
