import Verif.Proof.Bound
import Verif.Proof.PtLen
/-!
# C24: decoded size is bounded by the header — and decoding does NOT always terminate
-/

namespace Lha

/-- Partial C24 (full statement: for *every* packed byte sequence and every announced size decoding
terminates with an output of at least the announced size and less than 256 bytes more).
Missing: termination — it is false, see `C24_hangs`.  Proved: for lh4, lh5, lh6 and arbitrary packed
bytes, if decoding returns, the bound holds. -/
theorem C24_bound_partial (dicbit : Nat) (hd : dicbit < 16) (tab : Arr) (h : Hf) (hok : HfOk h) (original packed : Nat)
    (inp : List Nat) (o : DecOut) (ho : decodeSt1 dicbit tab h original packed inp = .ok o) :
    original ≤ o.out.length ∧ o.out.length < original + 256 := by
  unfold decodeSt1 at ho
  obtain ⟨d, h1, h2⟩ := bind_ok ho
  obtain ⟨⟨out, crc, d'⟩, h3, h4⟩ := bind_ok h2
  cases h4
  have hcl : d.h.cLen.size = 510 := by
    unfold decodeStartSt1 at h1
    obtain ⟨r, h5, h6⟩ := bind_ok h1
    cases h6
    simp only []
    have : (setNp dicbit h).cLen = h.cLen := by
      unfold setNp
      split
      · rfl
      · split
        · rfl
        · split <;> rfl
    rw [this]
    exact hok.cLen
  have hlt : 2 ^ dicbit < 65536 := by
    calc 2 ^ dicbit ≤ 2 ^ 15 := Nat.pow_le_pow_right (by omega) (by omega)
      _ < 65536 := by decide
  exact decodeWin_len (Nat.two_pow_pos _) hlt (fun d : Dec => d.h.cLen.size = 510)
    (fun _ a b d c d' hp hc => by
      obtain ⟨q1, q2⟩ := decodeCSt1_bound hp hc
      exact ⟨by omega, q2⟩)
    (fun a b d p d' hp hc => by
      have := decodePSt1_cLen hc
      rw [this]
      exact hp) hcl h3

/-- A 36 byte stream.  Block 1 defines an lh7 distance code whose tree has the left spine 17 → 18 → 19.
Block 2 defines a code for code lengths whose tree stores leaf 17 as left child of node 19, and then a
distance code that `makeTable` rejects; its error is ignored, so distances are decoded with the table of
the code-length code, and the descent runs through 19 → 17 → 18 → 19 … for ever.  The guard of the loop
(`mask != 0 || j != left[j]`) only stops cycles of length one. -/
def hangStream : List Nat :=
  [0, 1, 0, 0, 4, 24, 20, 229, 221, 239, 239, 239, 239, 239, 239, 239, 239, 224, 0, 25, 148, 201, 119, 120, 0, 0, 0,
    125, 240, 2, 0, 27, 254, 0, 0, 0]

/-- **C24 (and C27) are false**: in a fresh process, decoding this lh7 entry (announced size 4) never returns. -/
theorem C24_hangs : (makeCrcTable >>= fun tab =>
    (decodeSt1 16 tab Hf.fresh 4 hangStream.length hangStream).map DecOut.out) = .error .diverge := by
  decide +kernel

/-- A 34 byte stream for lh5.  Block 1's code for code lengths is overfull (its total is 2 · 65536, which the 16-bit check of
`makeTable` takes for complete), so a long code descends through the leaf 15 and makes 21 its left child.  Block 2's code for
code lengths makes 15 the left child of node 21.  Block 2's distance table is the constant 15, no distance symbol of lh5, so
every distance is looked up along 15 → 21 → 15 … for ever. -/
def hangStream5 : List Nat :=
  [0, 1, 154, 72, 114, 238, 247, 224, 0, 39, 247, 239, 192, 2, 8, 0, 0, 12, 74, 100, 187, 189, 247, 224, 0, 31, 223, 192, 8,
    0, 120, 0, 0, 0]

/-- The same for lh6, with the cycle 16 → 24 → 16. -/
def hangStream6 : List Nat :=
  [0, 1, 154, 72, 114, 238, 247, 239, 239, 239, 224, 9, 253, 252, 0, 32, 128, 0, 0, 50, 41, 146, 238, 247, 223, 191, 191,
    223, 240, 3, 255, 127, 224, 4, 0, 16, 0, 0, 0]

/-- The same for the default method lh5 … -/
theorem C24_hangs_lh5 : (makeCrcTable >>= fun tab =>
    (decodeSt1 13 tab Hf.fresh 4 hangStream5.length hangStream5).map DecOut.out) = .error .diverge := by
  decide +kernel

/-- … and for lh6. -/
theorem C24_hangs_lh6 : (makeCrcTable >>= fun tab =>
    (decodeSt1 15 tab Hf.fresh 4 hangStream6.length hangStream6).map DecOut.out) = .error .diverge := by
  decide +kernel

/-- Non-vacuity of `C24_bound_partial`: a stream on which decoding returns, overshooting the announced size. -/
example : HfOk Hf.fresh ∧ (makeCrcTable >>= fun tab =>
    (decodeSt1 13 tab Hf.fresh 2 7 [1, 1, 0, 0, 31, 208, 0]).map fun o => o.out.length) = .ok 256 := by
  refine ⟨by constructor <;> rfl, ?_⟩
  decide +kernel

end Lha
