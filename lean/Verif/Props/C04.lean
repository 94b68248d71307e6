import Verif.Proof.Stream
import Verif.Props.C07
/-!
# C04: the entropy stage is lossless
-/

namespace Lha

open Spec Finset

theorem readTokens_of_reads (ts : List (Nat × Nat)) : ∀ {d d' : Dec}, Reads st1Source d ts d' →
    (∀ t ∈ ts, t.1 < 256 → t.2 = 0) → readTokens ts.length d = .ok (ts, d') := by
  induction ts with
  | nil => intro d d' h _; rw [Reads] at h; rw [h]; rfl
  | cons t ts ih =>
    intro d d' h hz
    obtain ⟨s1, s2, h1, h2, h3⟩ := h
    have h1' : decodeCSt1 d = .ok (t.1, s1) := h1 (Arr.mk' 0 0) 0 0
    have hrec := ih h3 (fun u hu => hz u (by simp [hu]))
    rw [List.length_cons, readTokens, h1', ok_bind]
    simp only []
    by_cases h256 : 256 ≤ t.1
    · rw [if_pos h256] at h2
      have h2' : decodePSt1 s1 = .ok (t.2, s2) := h2 0 0
      rw [if_neg (by omega), h2', ok_bind]
      simp only []
      rw [hrec, ok_bind]
    · rw [if_neg h256] at h2
      subst h2
      rw [if_pos (by omega), hrec, ok_bind]
      have := hz t (by simp) (by omega)
      rw [show t = (t.1, t.2) by rfl, this]

/-- **C04.** For each of lh5, lh6, lh7 (window of `2^dicbit` bytes), every non-empty token list whose
letter/length symbols are below 510 and whose distances are below the window size, whatever the coder
and the decoder did before (any contents of the global tables `h`, `h'`), and whatever follows the stream
(`T`): coding raises no fault, and unless the output reaches the limit `size`, the decoder, given the packed bytes,
returns exactly the token list and has then consumed exactly the packed bytes. -/
theorem C04_lossless (dicbit : Nat) (hg : dicbit = 13 ∨ dicbit = 15 ∨ dicbit = 16) (h : Hf) (hok : HfOk h)
    (hbuf : h.buf.size = 65535) (size : Nat) (ts : List (Nat × Nat)) (hne : ts ≠ [])
    (hts : ∀ t ∈ ts, t.1 < 510 ∧ (t.1 < 256 → t.2 = 0) ∧ (256 ≤ t.1 → t.2 < 2 ^ dicbit)) :
    ∃ e, encodeTokens dicbit h size ts = .ok e ∧
      (e.w.unp = false → ∀ (h' : Hf) (T : List Nat), HfOk h' →
        ∃ d d', decodeStartSt1 dicbit ⟨h', ⟨e.w.out ++ T, e.w.compsize, 0, 0, 0⟩⟩ = .ok d ∧
          readTokens ts.length d = .ok (ts, d') ∧ d'.r.inp = T ∧ d'.r.compsize = 0) := by
  obtain ⟨np, pbit, hset, h1, h17, hnp, hpb, hpb2⟩ := setNp_ok hg
  obtain ⟨e0, a1, a2, a3⟩ := encodeStart_ok hset h17 h hok hbuf ⟨[], 0, size, 0, 0, false⟩ rfl rfl rfl
  have htok : ∀ t ∈ ts, TokOk np t := by
    intro t ht
    obtain ⟨q1, q2, q3⟩ := hts t ht
    by_cases h256 : 256 ≤ t.1
    · have hp := q3 h256
      have hd16 : 2 ^ dicbit ≤ 65536 := by
        rcases hg with h | h | h <;> rw [h] <;> omega
      refine ⟨q1, by omega, fun _ => ?_⟩
      obtain ⟨b1, b2, b3⟩ := bitLen_spec t.2 (by omega)
      by_contra hc
      have h5 := b3 (by omega)
      have : 2 ^ dicbit ≤ 2 ^ (bitLen t.2 - 1) := Nat.pow_le_pow_right (by omega) (by omega)
      omega
    · exact ⟨q1, by rw [q2 (by omega)]; omega, fun h => absurd h h256⟩
  obtain ⟨e1, b1, ⟨W, b2⟩, b3, b4⟩ := emit_st1 h1 hpb hpb2 ts a2 htok
  unfold encodeTokens
  rw [a1, ok_bind, b1, ok_bind]
  by_cases hu : e1.w.unp = true
  · refine ⟨e1, by unfold encodeEndSt1; rw [if_pos hu], ?_⟩
    intro h; rw [hu] at h; exact absurd h (by simp)
  · obtain ⟨e2, c1, c2, c3, _, c4, _⟩ := encodeEnd_ok h1 hpb hpb2 (b4 (by simpa using hu)) (by simpa using hne)
    refine ⟨e2, c1, ?_⟩
    intro hu2 h' T hok'
    obtain ⟨B, k, k1, k2, k3⟩ := c4 hu2
    rw [List.nil_append] at k3
    have hlen : e2.w.compsize = e2.w.out.length := by rw [c2.comp]; simp [BW.out]
    have hbytes : IsBytes e2.w.out := fun x hx => c2.byt x (by simpa [BW.out] using hx)
    obtain ⟨d, d', e1, e2, e3, e4, _⟩ := decodes_stream (hset h') (T := T) k1 k2 hbytes (k3.decodes h17 hpb hpb2) hok'
    rw [hlen]
    exact ⟨d, d', e1, readTokens_of_reads ts e2 (fun t ht => (hts t ht).2.1), e3, e4⟩

/-- Non-vacuity: a coder state as `allocBuf` leaves it and tokens of every kind. -/
example : HfOk { Hf.fresh with buf := Arr.mk' 65535 0 } ∧
    (∀ t ∈ [(65, 0), (256, 8191), (509, 0), (0, 0)],
      t.1 < 510 ∧ (t.1 < 256 → t.2 = 0) ∧ (256 ≤ t.1 → t.2 < 2 ^ 13)) := by
  refine ⟨by constructor <;> rfl, ?_⟩
  decide

end Lha
