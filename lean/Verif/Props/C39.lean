import Verif.Proof.Larc
/-!
# C39: lzs and lz5 streams decode as specified
-/

namespace Lha

open Spec

/-- **C39, lzs.** For every non-empty sequence of lzs tokens (letters, copies of 2 to 17 bytes from any of the 2048 ring positions), every
packed body `B` that holds their bits and any following bits `S`, and any bytes `T` after it in the archive: the decoder writes exactly
the text of the tokens on a ring of 2048 spaces with the cursor at 2031, reports its checksum and never reads beyond the body; it has read all of
it if only the padding of the last byte follows the tokens. -/
theorem C39_lzs (tab : Arr) (ht : makeCrcTable = .ok tab) (h : Hf) (ts : List RTok) (hok : ∀ t ∈ ts, lzsTokOk t) (B T : List Nat)
    (hB : IsBytes B) (S : List Bool) (hbits : bytesBits B = lzsBits ts ++ S) :
    ∃ n, n ≤ B.length ∧ decodeLzs tab h (Ring.run 2048 lzsRing ts).out.length B.length (B ++ T) =
      .ok ⟨(Ring.run 2048 lzsRing ts).out, crc16 0 (Ring.run 2048 lzsRing ts).out, n, (B ++ T).drop n, h⟩ ∧
      (S.length < 8 → n = B.length) := by
  obtain ⟨tab', ht1, ht2⟩ := makeCrcTable_ok
  rw [ht1] at ht
  cases ht
  unfold decodeLzs
  obtain ⟨r, r1, r2⟩ := initGetbits_spec ⟨B ++ T, B.length, 0, 0, 0⟩ B T rfl rfl hB
  rw [r1, ok_bind]
  rw [hbits] at r2
  obtain ⟨s', f1, f2⟩ := lzs_feeds ts 0 ⟨r, 0⟩ S T hok r2
  have hraw := expand_raw (m := 18) (N := 2048) (adj := 254) (c0 := 2031) (by omega) (by omega) ⟨32, rfl⟩ (by omega) (by omega) (by omega)
    (pre := []) ts lzsRingInv (fun t htm => lzs_ok_raw (hok t htm))
  simp only [List.nil_append, List.length_nil] at hraw
  have hdec := decodeWin_ok ht2 (by omega : 254 ≤ 255) (dic := 2048) (rawToks 18 2048 254 0 ts) ⟨r, 0⟩ s' f1
    (fun u hu _ => rawToks_dist (by omega) ts 0 u hu)
    (orig := (Ring.run 2048 lzsRing ts).out.length)
    (by
      intro i hi
      rw [← hraw]
      exact rawToks_prefix (by omega) ts 0 [] (fun t htm => lzs_ok_raw (hok t htm)) i hi)
    (by rw [← hraw]; exact Nat.le_refl _)
    ⟨by omega, ⟨32, rfl⟩, by omega⟩
  rw [hdec, ok_bind]
  unfold expand
  rw [hraw]
  obtain ⟨C, c1, c2, c3, c4⟩ := f2.rest
  have hadv : ∃ k, s'.r.inp = (B ++ T).drop k ∧ s'.r.compsize + k = B.length := by
    obtain ⟨k1, k2, k3⟩ := initGetbits_adv r1
    have : Adv (⟨r, 0⟩ : Lzs).r s'.r := decodeFrom_rel (fun a b : Lzs => Adv a.r b.r) (fun a => Adv.refl _) (fun a b c => Adv.trans)
      (fun w a b d c d' hd => decodeCLzs_adv hd)
      (fun a b d p d' hd => by cases hd; exact Adv.refl _) hdec
    obtain ⟨k4, k5, k6⟩ := this
    simp only [] at k2 k3 k5 k6
    refine ⟨k1 + k4, by rw [k5, k2, List.drop_drop], by omega⟩
  obtain ⟨k, k1, k2⟩ := hadv
  refine ⟨k, by omega, ?_, ?_⟩
  · simp only []
    rw [show B.length - s'.r.compsize = k by omega, k1]
  · intro hS
    have hl := congrArg List.length c4
    rw [bytesBits_length, List.length_drop] at hl
    omega

/-- **C39, lz5.** For every sequence of lz5 tokens (letters, copies of 3 to 18 bytes from any of the 4096 ring positions) in groups of
eight, and any bytes `T` after it: the decoder writes exactly the text of the tokens on the preset ring with the cursor at 4078,
reports its checksum, and stops reading where the stream ends.  (The number of bytes it reports as read, the last but two component, is
always 0: a defect, see C42.) -/
theorem C39_lz5 (tab : Arr) (ht : makeCrcTable = .ok tab) (h : Hf) (gs : List (List RTok)) (hgs : lz5Groups gs)
    (hok : ∀ g ∈ gs, ∀ t ∈ g, lz5TokOk t) (packed : Nat) (T : List Nat) :
    decodeLz5 tab h (Ring.run 4096 lz5Ring gs.flatten).out.length packed (lz5Bytes gs ++ T) =
      .ok ⟨(Ring.run 4096 lz5Ring gs.flatten).out, crc16 0 (Ring.run 4096 lz5Ring gs.flatten).out, 0, T, h⟩ := by
  obtain ⟨tab', ht1, ht2⟩ := makeCrcTable_ok
  rw [ht1] at ht
  cases ht
  unfold decodeLz5
  obtain ⟨w, w1, w2, w3, w4⟩ := startLz5_ok
  rw [w1, ok_bind]
  obtain ⟨fc, mp, fl, f1⟩ := lz5_feeds gs 0 0 0 T hgs hok
  have hokr : ∀ t ∈ gs.flatten, RTok.Ok 4096 253 t := by
    intro t htm
    obtain ⟨g, hg, htg⟩ := List.mem_flatten.1 htm
    exact lz5_ok_raw (hok g hg t htg)
  have hpl : (w.slice 0 4096).length = 4096 := slice_length w 4096 0
  have hraw := expand_raw (m := 19) (N := 4096) (adj := 253) (c0 := 4078) (by omega) (by omega) ⟨16, rfl⟩ (by omega) (by omega) (by omega)
    (pre := w.slice 0 4096) gs.flatten (lz5RingInv w2 w3 w4) hokr
  simp only [List.append_nil, List.length_nil] at hraw
  have hlen := congrArg List.length hraw
  rw [List.length_append] at hlen
  have hwi := winInit_pre w (by omega) w4
  rw [w2] at hwi
  obtain ⟨out, o1, o2⟩ := decodeFrom_ok ht2 (by omega : 253 ≤ 255) hwi (rawToks 19 4096 253 0 gs.flatten) _ _ f1
    (fun u hu _ => rawToks_dist (by omega) gs.flatten 0 u hu)
    (orig := (Ring.run 4096 lz5Ring gs.flatten).out.length)
    (by
      intro i hi
      rw [← hlen]
      exact rawToks_prefix (by omega) gs.flatten 0 _ hokr i hi)
    (by rw [← hlen]) ⟨by omega, ⟨16, rfl⟩, by omega⟩
  rw [hraw] at o1
  have := List.append_cancel_left o1
  subst this
  rw [o2, ok_bind, Nat.sub_self]

/-- Non-vacuity: a letter and copies, one of them from the preset or blank part of the ring. -/
example : (Ring.run 2048 lzsRing [.lit 65, .copy 2031 5, .copy 7 2]).out = [65, 65, 65, 65, 65, 65, 32, 32] ∧
    (∀ t ∈ [RTok.lit 65, .copy 2031 5, .copy 7 2], lzsTokOk t) ∧
    bytesBits [160, 191, 121, 128, 56, 0] = lzsBits [.lit 65, .copy 2031 5, .copy 7 2] ++ [false, false, false, false, false, false, false] := by
  refine ⟨by decide, ?_, by decide⟩
  intro t ht
  simp only [List.mem_cons, List.not_mem_nil, or_false] at ht
  rcases ht with rfl | rfl | rfl <;> simp [lzsTokOk]

example : (Ring.run 4096 lz5Ring [.lit 65, .copy 4078 4, .copy 3340 3]).out = [65, 65, 65, 65, 65, 12, 13, 14] ∧
    lz5Groups [[.lit 65, .copy 4078 4, .copy 3340 3]] ∧
    lz5Bytes [[.lit 65, .copy 4078 4, .copy 3340 3]] = [1, 65, 238, 241, 12, 208] := by
  refine ⟨by decide, ⟨by decide, by decide⟩, by decide⟩

end Lha
