import Verif.Proof.Static
import Verif.Proof.Lh1
import Verif.Model.Archive
/-!
# Streams of the formats lh4, lh5, lh6, lh7, whoever wrote them
-/

namespace Lha

open Spec

/-- The distances of a conforming stream lie in the window (for lh4: the number of classes would allow more). -/
theorem Spec.IsBlock.dist {np pbit : Nat} (hnp : np ≤ 17) (h1 : 1 ≤ np) {ts : List (Nat × Nat)} {B : List Bool} (hB : IsBlock np pbit ts B) :
    ∀ t ∈ ts, 256 ≤ t.1 → t.2 < 2 ^ (np - 1) := by
  obtain ⟨_, _, c, _, p, _, _, _, _, _, _, htok, _⟩ := hB
  intro t ht h256
  have hlt := BCode_has_lt ((htok t ht).2 h256)
  unfold distClass at hlt
  by_cases h0 : t.2 = 0
  · rw [h0]; exact Nat.two_pow_pos _
  · rw [if_neg h0] at hlt
    exact (Nat.log2_lt h0).1 (by omega)

theorem Spec.Blocks.dist {np pbit : Nat} (hnp : np ≤ 17) (h1 : 1 ≤ np) {ts : List (Nat × Nat)} {B : List Bool} (hB : Blocks np pbit ts B) :
    ∀ t ∈ ts, 256 ≤ t.1 → t.2 < 2 ^ (np - 1) := by
  induction hB with
  | nil => intro t ht; exact absurd ht List.not_mem_nil
  | cons h _ ih =>
    intro t ht
    rcases List.mem_append.1 ht with h' | h'
    · exact h.dist hnp h1 t h'
    · exact ih t h'

/-- How much of the packed data has been read. -/
theorem read_all {s : BR} {S : List Bool} {T B : List Nat} (h : RRep s S T) (hS : S.length < 8) : s.compsize = 0 ∧ B.length - s.compsize = B.length := by
  obtain ⟨C, c1, c2, c3, c4⟩ := h.rest
  have hl := congrArg List.length c4
  rw [bytesBits_length, List.length_drop] at hl
  omega

/-- Decoding a sequence of blocks. -/
theorem decodeSt1_blocks {tab : Arr} (ht : CrcTab tab) {dicbit np pbit : Nat} {h : Hf} (hset : setNp dicbit h = { h with np := np, pbit := pbit })
    (hnp : np ≤ 17) (hpb : np < 2 ^ pbit) (hpb2 : pbit ≤ 5) {ts : List (Nat × Nat)} {bs S : List Bool} (hB : Blocks np pbit ts bs)
    (hdist : ∀ t ∈ ts, 256 ≤ t.1 → t.2 < 2 ^ dicbit) (hdic : DicOk (2 ^ dicbit) (expand 253 ts).length)
    {B T : List Nat} (hb : IsBytes B) (hbits : bytesBits B = bs ++ S) (hok : HfOk h) :
    ∃ n h', n ≤ B.length ∧ decodeSt1 dicbit tab h (expand 253 ts).length B.length (B ++ T) =
      .ok ⟨expand 253 ts, crc16 0 (expand 253 ts), n, (B ++ T).drop n, h'⟩ ∧ (S.length < 8 → n = B.length) ∧ HfOk h' ∧ h'.np = np ∧ h'.pbit = pbit := by
  obtain ⟨d, d', e0, e1, e2, e3, e5, e6⟩ := decodes_bits hset (T := T) hbits hb (hB.decodes hnp hpb hpb2) hok
  have hrun : decodeSt1 dicbit tab h (expand 253 ts).length B.length (B ++ T) =
      .ok ⟨expand 253 ts, crc16 0 (expand 253 ts), B.length - d'.r.compsize, d'.r.inp, d'.h⟩ := by
    unfold decodeSt1
    rw [e0, ok_bind, decodeWin_ok ht (by omega : 253 ≤ 255) ts d d' (Feeds.of_reads _ _ _ e1) hdist (fun i hi => expand_prefix_lt' ts i hi)
      (Nat.le_refl _) hdic, ok_bind]
  obtain ⟨a1, a2⟩ := decodeSt1_adv hrun
  simp only [] at a1 a2
  refine ⟨B.length - d'.r.compsize, d'.h, a2, by rw [hrun, a1], fun hS => (read_all e2 hS).2, e3, e5, e6⟩

/-- Decoding a sequence of blocks with the window of 64 KiB, texts of any length. -/
theorem decodeSt1_blocks16 {tab : Arr} (ht : CrcTab tab) {h : Hf} {ts : List (Nat × Nat)} {bs S : List Bool} (hB : Blocks 17 5 ts bs)
    {B T : List Nat} (hb : IsBytes B) (hbits : bytesBits B = bs ++ S) (hok : HfOk h) :
    ∃ n h' w, w = (expand 253 ts).drop ((expand 253 ts).length / 65536 * 65536) ∧ decodeSt1 16 tab h (expand 253 ts).length B.length (B ++ T) =
      .ok ⟨w, crc16 0 w, n, (B ++ T).drop n, h'⟩ := by
  have hset : setNp 16 h = { h with np := 17, pbit := 5 } := rfl
  obtain ⟨d, d', e0, e1, e2, e3, e5, e6⟩ := decodes_bits hset (T := T) hbits hb (hB.decodes (by omega) (by omega) (by omega)) hok
  obtain ⟨w, w1, w2⟩ := decodeWin16_ok (tab := tab) ht (by omega : 253 ≤ 255) ts d d' (Feeds.of_reads _ _ _ e1)
    (hB.dist (by omega) (by omega)) (fun i hi => expand_prefix_lt' ts i hi) (Nat.le_refl _)
  have hrun : decodeSt1 16 tab h (expand 253 ts).length B.length (B ++ T) =
      .ok ⟨w, crc16 0 w, B.length - d'.r.compsize, d'.r.inp, d'.h⟩ := by
    unfold decodeSt1
    rw [e0, ok_bind, show (2 : Nat) ^ 16 = 65536 from rfl, w2, ok_bind]
  obtain ⟨a1, a2⟩ := decodeSt1_adv hrun
  simp only [] at a1 a2
  exact ⟨B.length - d'.r.compsize, d'.h, w, w1, by rw [hrun, a1]⟩

end Lha
