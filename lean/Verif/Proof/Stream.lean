import Verif.Proof.Huf
/-!
# A packed stream as a decoder sees it
-/

namespace Lha

open Spec

/-- The packed stream, followed by any bits `S`, as a decoder sees it. -/
theorem decodes_bits {dicbit np pbit : Nat} {h : Hf} (hset : setNp dicbit h = { h with np := np, pbit := pbit })
    {out T : List Nat} {B S : List Bool} {ts : List (Nat × Nat)}
    (hb : bytesBits out = B ++ S) (hout : IsBytes out) (hd : Decodes np pbit B ts) (hok : HfOk h) :
    ∃ d d', decodeStartSt1 dicbit ⟨h, ⟨out ++ T, out.length, 0, 0, 0⟩⟩ = .ok d ∧ Reads st1Source d ts d' ∧
      RRep d'.r S T ∧ HfOk d'.h ∧ d'.h.np = np ∧ d'.h.pbit = pbit := by
  unfold decodeStartSt1
  obtain ⟨r, r1, r2⟩ := initGetbits_spec ⟨out ++ T, out.length, 0, 0, 0⟩ out T rfl rfl hout
  rw [r1, ok_bind]
  simp only [hset]
  rw [hb] at r2
  obtain ⟨d', e1, e2, e3, e5, e6, _⟩ := hd ⟨{ h with np := np, pbit := pbit, blocksize := 0 }, r⟩ S T
    ⟨hok.left, hok.right, hok.cFreq, hok.pFreq, hok.tFreq, hok.cLen, hok.ptLen, hok.cCode, hok.ptCode, hok.cTable,
      hok.ptTable⟩ rfl rfl rfl r2
  exact ⟨_, d', rfl, e1, e2, e3, e5, e6⟩

/-- The packed stream (with `k ≤ 7` padding bits) as a decoder sees it. -/
theorem decodes_stream {dicbit np pbit : Nat} {h : Hf} (hset : setNp dicbit h = { h with np := np, pbit := pbit })
    {out T : List Nat} {B : List Bool} {k : Nat} {ts : List (Nat × Nat)} (hk : k ≤ 7)
    (hb : bytesBits out = B ++ List.replicate k false) (hout : IsBytes out) (hd : Decodes np pbit B ts)
    (hok : HfOk h) :
    ∃ d d', decodeStartSt1 dicbit ⟨h, ⟨out ++ T, out.length, 0, 0, 0⟩⟩ = .ok d ∧ Reads st1Source d ts d' ∧
      d'.r.inp = T ∧ d'.r.compsize = 0 ∧ HfOk d'.h ∧ d'.h.np = np ∧ d'.h.pbit = pbit := by
  obtain ⟨d, d', e0, e1, e2, e3, e5, e6⟩ := decodes_bits hset (T := T) hb hout hd hok
  refine ⟨d, d', e0, e1, ?_⟩
  obtain ⟨C, c1, c2, c3, c4⟩ := e2.rest
  rw [List.drop_eq_nil_of_le (by simp; omega)] at c4
  have hl := congrArg List.length c4
  rw [bytesBits_length, List.length_nil] at hl
  have hC : C = [] := List.length_eq_zero_iff.mp (by omega)
  subst hC
  exact ⟨by simpa using c1, by simpa using c2.symm, e3, e5, e6⟩

end Lha
